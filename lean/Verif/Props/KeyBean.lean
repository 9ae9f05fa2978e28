import Verif.Proof.KeyBean

/-! # KeyBean: properties C38, C82 -/
namespace Gofer.Props.KeyBean
open Gofer.KeyBean Gofer.Thrift
open Gofer.Spec.Thrift Gofer.Spec.KeyBean

/-! ### C38 -/

/-- C38. Writing and reading a bean gives the same bean, whatever the order in which Go iterates the
maps and whatever follows in the buffer. `limit` is the protocol's maximum size. -/
theorem C38_roundtrip (limit : Nat) (hl : limit < 2 ^ 31) (kb : KB) (hn : ¬ HasNil kb) (hf : Fits limit kb) (o : Orders)
    (ho : OrdersOf kb o) (trailing : Bytes) : ∃ kb', tDecode limit (tEncode kb o ++ trailing) = some kb' ∧ Same kb kb' :=
  (tDecode_tEncode hl kb o ho hf trailing).2 hn

/-- C38. A bean that holds a nil user is written without error but cannot be read back. -/
theorem C38_nil_user (limit : Nat) (hl : limit < 2 ^ 31) (kb : KB) (hn : HasNil kb) (hf : Fits limit kb) (o : Orders)
    (ho : OrdersOf kb o) (trailing : Bytes) : tDecode limit (tEncode kb o ++ trailing) = none :=
  (tDecode_tEncode hl kb o ho hf trailing).1 hn

/-- C38. The reader, on the encoding of any struct: it yields the bean that the fields describe, or an
error if they describe none. -/
theorem C38_reader (limit : Nat) (hl : limit < 2 ^ 31) (fs : TFields) (h : okFields limit 64 fs) (hs : Shaped fs) (trailing : Bytes) :
    match beanOf fs Bean.empty with
    | some b => ∃ kb, tDecode limit (encFields 0 fs ++ trailing) = some kb ∧ Agree kb b
    | none => tDecode limit (encFields 0 fs ++ trailing) = none :=
  tDecode_spec hl fs h hs trailing

theorem beanOf_known (fs : TFields) (b : Bean) : beanOf fs b = beanOf (known fs) b := by
  match fs with
  | .nil => rfl
  | .cons id v rest =>
    have ih := beanOf_known rest
    cases v with
    | map kt vt es =>
      simp only [known]
      split
      · rename_i hk
        simp only [beanOf, ih]
      · rename_i hk
        simp only [not_or] at hk
        simp only [beanOf, hk.1, hk.2.1, hk.2.2.1, hk.2.2.2, if_false, ih]
    | _ => simp only [known, beanOf, ih]

theorem agreeU_unique {m m' : Option UserMap} {f : Option (Bytes → Option User)} (h : AgreeU m f) (h' : AgreeU m' f) : sameMap m m' :=
  sameMap_of_agreeU h h'

/-- C38. Unknown fields, of any type and wherever they are, do not matter: two structs with the same known
fields are read as the same bean. -/
theorem C38_unknown_fields (limit : Nat) (hl : limit < 2 ^ 31) (fs gs : TFields) (hf : okFields limit 64 fs) (hg : okFields limit 64 gs)
    (hfs : Shaped fs) (hgs : Shaped gs) (hk : known fs = known gs) :
    match tDecode limit (encFields 0 fs), tDecode limit (encFields 0 gs) with
    | some kb, some kb' => Same kb kb'
    | none, none => True
    | _, _ => False := by
  have h1 := C38_reader limit hl fs hf hfs []
  have h2 := C38_reader limit hl gs hg hgs []
  rw [List.append_nil] at h1 h2
  rw [beanOf_known, hk] at h1
  rw [beanOf_known] at h2
  cases hb : beanOf (known gs) Bean.empty with
  | none => simp only [hb] at h1 h2; simp only [h1, h2]
  | some b =>
    simp only [hb] at h1 h2
    obtain ⟨kb, e, ha⟩ := h1
    obtain ⟨kb', e', ha'⟩ := h2
    simp only [e, e']
    exact ⟨sameMap_of_agreeU ha.1 ha'.1, sameMap_of_agreeU ha.2.1 ha'.2.1, sameMap_of_agreeU ha.2.2.1 ha'.2.2.1,
      sameMap_of_agreeS ha.2.2.2 ha'.2.2.2⟩

/-- C38. A truncated encoding is rejected, wherever it is cut. -/
theorem C38_truncated (limit : Nat) (hl : limit < 2 ^ 31) (kb : KB) (hf : Fits limit kb) (o : Orders) (ho : OrdersOf kb o)
    (n : Nat) (hn : n < (tEncode kb o).length) : tDecode limit ((tEncode kb o).take n) = none := by
  refine tDecode_prefix hl (fieldsOf kb o) (okFields_fieldsOf kb o ho hf) (shaped_fieldsOf kb o) _ ((tEncode kb o).drop n) ?_ ?_
  · intro h
    have := congrArg List.length h
    simp at this
    omega
  · rw [← tEncode_eq hl kb o ho hf, List.take_append_drop]

/-! ### Concrete cases for C38 -/

/-- Two admins and an empty client map; mq is nil. -/
def sample : KB :=
  ⟨some ((AMap.empty.store [97] (some ⟨[97], [49, 50], 3⟩)).store [98] (some ⟨[98], [], 255⟩)), some AMap.empty, none,
    some (AMap.empty.store [107] [118])⟩

/-- The entries backwards. -/
def sampleOrders : Orders :=
  ⟨[([97], some ⟨[97], [49, 50], 3⟩), ([98], some ⟨[98], [], 255⟩)], [], [], [([107], [118])]⟩

theorem sample_orders : OrdersOf sample sampleOrders where
  admin m h := by cases h; exact List.Perm.swap ..
  client m h := by cases h; exact List.Perm.refl _
  mq m h := by cases h
  other m h := by cases h; exact List.Perm.refl _

theorem sample_fits : Fits 100 sample where
  admin m h := by
    cases h
    refine ⟨by decide, fun p hp => ?_⟩
    simp [AMap.store, AMap.empty] at hp
    rcases hp with rfl | rfl <;> simp
  client m h := by cases h; exact ⟨by decide, by simp [AMap.empty]⟩
  mq m h := by cases h
  other m h := by
    cases h
    refine ⟨by decide, fun p hp => ?_⟩
    simp [AMap.store, AMap.empty] at hp
    rcases hp with rfl; simp

theorem sample_noNil : ¬ HasNil sample := by
  rintro (⟨m, k, e, h⟩ | ⟨m, k, e, h⟩ | ⟨m, k, e, h⟩) <;> cases e
  · rw [AMap.load_store, AMap.load_store] at h
    split at h
    · cases h
    · split at h
      · cases h
      · simp at h
  · simp at h

example : tEncode sample sampleOrders =
    [27, 2, 140, 1, 97, 24, 1, 97, 24, 2, 49, 50, 19, 3, 0, 1, 98, 24, 1, 98, 24, 0, 19, 255, 0, 27, 0, 43, 1, 136, 1, 107, 1, 118, 0] := by
  decide +kernel
example : ∃ kb', tDecode 100 (tEncode sample sampleOrders ++ []) = some kb' ∧ Same sample kb' :=
  C38_roundtrip 100 (by decide) sample sample_noNil sample_fits sampleOrders sample_orders []

/-- A struct with an unknown list field and a mistyped field 2 besides field 4. -/
example : (tDecode 100 (encFields 0 (.cons 9 (.list .i32 (.cons (.i32 5) (.cons (.i32 (-1)) .nil)))
    (.cons 2 (.bool true) (.cons 4 (.map .string .string (.cons (.str [1]) (.str [2]) .nil)) .nil))))).map (fun kb => (kb.client.isSome, kb.other.map AMap.entries)) =
    some (false, some [([1], [2])]) := by
  decide +kernel

/-! ### C82 -/

/-- Same contents; a nil map counts as empty. -/
def sameContents (p q : KB) : Prop :=
  (∀ k, loadOf p.admin k = loadOf q.admin k) ∧ (∀ k, loadOf p.client k = loadOf q.client k) ∧
    (∀ k, loadOf p.mq k = loadOf q.mq k) ∧ (∀ k, loadOf p.other k = loadOf q.other k)

/-- C82, as stated. -/
def C82_claim : Prop := ∀ p q, equals p q = true ↔ sameContents p q

/-- No nil users and no empty strings. -/
def NoZero (p : KB) : Prop :=
  (∀ k, loadOf p.admin k ≠ some none) ∧ (∀ k, loadOf p.client k ≠ some none) ∧ (∀ k, loadOf p.mq k ≠ some none) ∧
    ∀ k, loadOf p.other k ≠ some []

theorem mem_entriesOf {A : Type} (m : Option (AMap Bytes A)) (k : Bytes) (a : A) : (k, a) ∈ entriesOf m ↔ loadOf m k = some a := by
  cases m with
  | none => simp [entriesOf, loadOf]
  | some m => exact AMap.mem_entries_iff m k a

theorem nodup_entriesOf {A : Type} (m : Option (AMap Bytes A)) : ((entriesOf m).map Prod.fst).Nodup := by
  cases m with
  | none => simp [entriesOf]
  | some m => exact m.nodup

theorem loadOf_isSome {A : Type} (m : Option (AMap Bytes A)) (k : Bytes) : (loadOf m k).isSome ↔ k ∈ (entriesOf m).map Prod.fst := by
  cases m with
  | none => simp [entriesOf, loadOf]
  | some m => exact AMap.load_isSome_iff m k

theorem length_of_loadOf {A : Type} (m n : Option (AMap Bytes A)) (h : ∀ k, loadOf m k = loadOf n k) :
    (entriesOf m).length = (entriesOf n).length := by
  have hp : ((entriesOf m).map Prod.fst).Perm ((entriesOf n).map Prod.fst) := by
    rw [List.perm_ext_iff_of_nodup (nodup_entriesOf m) (nodup_entriesOf n)]
    intro k
    rw [← loadOf_isSome, ← loadOf_isSome, h k]
  simpa using hp.length_eq

theorem mapEquals_of_same {A : Type} {eq : A → A → Bool} (he : ∀ a b, eq a b = true ↔ a = b) (zero : A) (p q : Option (AMap Bytes A))
    (h : ∀ k, loadOf p k = loadOf q k) : mapEquals eq zero p q = true := by
  simp only [mapEquals, Bool.and_eq_true, beq_iff_eq, List.all_eq_true]
  refine ⟨length_of_loadOf p q h, fun e hm => ?_⟩
  rw [he, ← h, (mem_entriesOf p e.1 e.2).1 hm]
  rfl

theorem same_of_mapEquals {A : Type} {eq : A → A → Bool} (he : ∀ a b, eq a b = true ↔ a = b) (zero : A) (p q : Option (AMap Bytes A))
    (hz : ∀ k, loadOf p k ≠ some zero) (h : mapEquals eq zero p q = true) : ∀ k, loadOf p k = loadOf q k := by
  simp only [mapEquals, Bool.and_eq_true, beq_iff_eq, List.all_eq_true] at h
  have h1 : ∀ k a, loadOf p k = some a → loadOf q k = some a := by
    intro k a ha
    have := h.2 (k, a) ((mem_entriesOf p k a).2 ha)
    rw [he] at this
    cases hq : loadOf q k with
    | none => simp [hq] at this; rw [this] at ha; exact absurd ha (hz k)
    | some b => simp [hq] at this; rw [this]
  have hsub : (entriesOf p).map Prod.fst ⊆ (entriesOf q).map Prod.fst := by
    intro k hk
    rw [← loadOf_isSome] at hk ⊢
    obtain ⟨a, ha⟩ := Option.isSome_iff_exists.1 hk
    rw [h1 k a ha]; rfl
  have hperm := (List.subperm_of_subset (nodup_entriesOf p) hsub).perm_of_length_le (by simp [h.1])
  intro k
  cases hp : loadOf p k with
  | some a => exact (h1 k a hp).symm
  | none =>
    cases hq : loadOf q k with
    | none => rfl
    | some b =>
      exfalso
      have : k ∈ (entriesOf q).map Prod.fst := by rw [← loadOf_isSome, hq]; rfl
      rw [← hperm.mem_iff, ← loadOf_isSome, hp] at this
      simp at this

theorem userEquals_iff (a b : Option User) : userEquals a b = true ↔ a = b := by
  cases a <;> cases b <;> simp [userEquals]
  rename_i a b
  cases a; cases b
  simp [and_assoc]

/-- C82. Beans with the same contents are equal for `Equals`. -/
theorem C82_complete_partial (p q : KB) (h : sameContents p q) : equals p q = true := by
  simp only [equals, Bool.and_eq_true]
  exact ⟨⟨⟨mapEquals_of_same userEquals_iff _ _ _ h.1, mapEquals_of_same userEquals_iff _ _ _ h.2.1⟩,
    mapEquals_of_same userEquals_iff _ _ _ h.2.2.1⟩, mapEquals_of_same (fun a b => by simp) _ _ _ h.2.2.2⟩

/-- C82. If the receiver holds no nil users and no empty strings, `Equals` means the same contents. Missing:
receivers with such entries. -/
theorem C82_sound_partial (p q : KB) (hz : NoZero p) : equals p q = true ↔ sameContents p q := by
  refine ⟨fun h => ?_, C82_complete_partial p q⟩
  simp only [equals, Bool.and_eq_true] at h
  exact ⟨same_of_mapEquals userEquals_iff _ _ _ hz.1 h.1.1.1, same_of_mapEquals userEquals_iff _ _ _ hz.2.1 h.1.1.2,
    same_of_mapEquals userEquals_iff _ _ _ hz.2.2.1 h.1.2, same_of_mapEquals (fun a b => by simp) _ _ _ hz.2.2.2 h.2⟩

def onlyOther (k v : Bytes) : KB := ⟨none, none, none, some (AMap.empty.store k v)⟩

/-- C82 is false: a missing key reads as the empty string. -/
theorem C82_claim_false : ¬ C82_claim := by
  intro h
  have := ((h (onlyOther [97] []) (onlyOther [98] [1])).1 (by decide +kernel)).2.2.2 [97]
  revert this
  decide +kernel

/-- C82. `Equals` is not even symmetric. -/
theorem C82_not_symmetric : ∃ p q, equals p q = true ∧ equals q p = false :=
  ⟨onlyOther [97] [], onlyOther [98] [1], by decide +kernel, by decide +kernel⟩

example : equals sample sample = true := C82_complete_partial _ _ ⟨fun _ => rfl, fun _ => rfl, fun _ => rfl, fun _ => rfl⟩
example : equals (onlyOther [97] [1]) (onlyOther [97] [2]) = false := by decide +kernel
example : NoZero (onlyOther [97] [1]) := by
  refine ⟨by simp [onlyOther, loadOf], by simp [onlyOther, loadOf], by simp [onlyOther, loadOf], fun k => ?_⟩
  simp only [onlyOther, loadOf, AMap.load_store]
  split <;> simp

end Gofer.Props.KeyBean
