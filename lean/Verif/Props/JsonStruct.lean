import Verif.Proof.JsonStructDoc
/-!
# C237 to C240: structs through `JsonEncode` and `JsonDecode`
-/
namespace Gofer.Props.JsonStruct
open Gofer.JsonStruct
open Gofer.Spec.Json (Bytes Text Fixed StrDoc Space filled)
open Gofer.Spec.JsonStruct

/-! ## Types and values for the examples -/

/-- Upper case of ASCII, as an example of the folding of names. -/
def up : Bytes → Bytes := fun s => s.map fun b => if 97 ≤ b ∧ b ≤ 122 then b - 32 else b

/-- `struct { N int32 "n"; S []string "s,omitempty"; P *bool "p" }` -/
def exF : Fields := .cons [110] false (.int true 32) (.cons [115] true (.list .str) (.cons [112] false (.ptr .bool) .nil))

def exT : T := .struct exF

theorem text1 (b : UInt8) (h : b.toNat < 128) : Text [b] := Gofer.Json.text_ascii [b] (by
  intro c hc
  simp only [List.mem_singleton] at hc
  subst hc
  rw [UInt8.lt_iff_toNat_lt]
  exact h)

theorem exT_good : Good exT := by
  refine ⟨by decide, text1 _ (by decide), ⟨by decide, by decide⟩, text1 _ (by decide), ⟨trivial, ?_⟩, text1 _ (by decide), trivial, trivial⟩
  intro h
  cases h

/-- `{ -7, {"a", ""}, &true }` -/
def exV : V := .struct [.int (-7), .list [.str [97], .str []] [], .ptr (.bool true)]

theorem exV_is : Is exT exV := by
  refine ⟨_, rfl, _, _, rfl, ⟨_, rfl, by unfold InRange; decide⟩, _, _, rfl, .inr ⟨_, _, rfl, ?_, by simp⟩, _, _, rfl, .inr ⟨_, rfl, _, rfl⟩, rfl⟩
  intro x hx
  simp only [List.mem_cons, List.not_mem_nil, or_false] at hx
  rcases hx with rfl | rfl <;> exact ⟨_, rfl⟩

theorem exV_plain : Plain exT exV := by
  intro l hl
  cases hl
  intro v r hr
  cases hr
  refine ⟨by simp, trivial, ?_⟩
  intro v r hr
  cases hr
  refine ⟨?_, ?_, ?_⟩
  · intro _ he
    simp [Spec.JsonStruct.Empty] at he
  · intro l b h
    cases h
    refine ⟨rfl, ?_⟩
    intro x hx s hs
    subst hs
    simp only [List.mem_cons, V.str.injEq, List.not_mem_nil, or_false] at hx
    rcases hx with rfl | rfl
    · exact text1 _ (by decide)
    · exact .nil
  · intro v r hr
    cases hr
    refine ⟨by simp, ?_, trivial⟩
    intro u hu
    cases hu
    exact ⟨(by intro h; cases h), trivial⟩

/-! ## C237: structs come back -/

/-- The claim that every value comes back as it was. -/
def C237_claim : Prop := ∀ (fold : Bytes → Bytes) (t : T) (v : V), Good t → depth t ≤ 10000 → Is t v → jsonDecode fold t (jsonEncode t v) = (v, true)

/-- A pointer to a nil pointer comes back as nil. -/
theorem C237_claim_false : ¬ C237_claim := by
  intro h
  have := h id (.ptr (.ptr .bool)) (.ptr .nil) trivial (by decide) (.inr ⟨_, rfl, .inl rfl⟩)
  have e : jsonDecode id (.ptr (.ptr .bool)) (jsonEncode (.ptr (.ptr .bool)) (.ptr .nil)) = (.nil, true) := rfl
  rw [e] at this
  simp at this

/-- An empty slice in a field with `omitempty` comes back as nil. -/
theorem C237_omitempty_nil (fold : Bytes → Bytes) : jsonDecode fold exT (jsonEncode exT (.struct [.int 1, .list [] [], .nil])) =
    (.struct [.int 1, .nil, .nil], true) := rfl

/-- Values without strings that are no texts, without pointers to nil, and without empty slices and maps in fields with `omitempty` come back as they were. -/
theorem C237_roundtrip (fold : Bytes → Bytes) (t : T) (v : V) (hg : Good t) (hd : depth t ≤ 10000) (hv : Is t v) (hp : Plain t v) :
    jsonDecode fold t (jsonEncode t v) = (v, true) := by
  rw [decode_encode fold t t v hg hd hv]
  exact view_store fold (back_view fold t v v hg hv (back_plain t v hv hp)) hg hg hv

example : jsonDecode up exT (jsonEncode exT exV) = (exV, true) := C237_roundtrip up exT exV exT_good (by decide) exV_is exV_plain

/-- What comes back, for every value: exactly one `w` with `Back t v w`. -/
theorem C237_back (fold : Bytes → Bytes) (t : T) (v : V) (hg : Good t) (hd : depth t ≤ 10000) (hv : Is t v) :
    (∃ w, Back t v w) ∧ ∀ w, Back t v w ↔ jsonDecode fold t (jsonEncode t v) = (w, true) := by
  have key : ∀ w, Back t v w → jsonDecode fold t (jsonEncode t v) = (w, true) := by
    intro w hw
    rw [decode_encode fold t t v hg hd hv]
    exact view_store fold (back_view fold t v w hg hv hw) hg hg hv
  obtain ⟨w, hw⟩ := back_exists t v hv
  refine ⟨⟨w, hw⟩, fun w' => ⟨key w', fun h => ?_⟩⟩
  rw [key w hw] at h
  simp only [Prod.mk.injEq, and_true] at h
  subst h
  exact hw

example : ∃ w, Back exT (.struct [.int 1, .list [] [], .nil]) w ∧ w = .struct [.int 1, .nil, .nil] :=
  ⟨_, ((C237_back up exT _ exT_good (by decide) ⟨_, rfl, _, _, rfl, ⟨_, rfl, by unfold InRange; decide⟩, _, _, rfl,
    .inr ⟨_, _, rfl, by simp, by simp⟩, _, _, rfl, .inl rfl, rfl⟩).2 _).2 (C237_omitempty_nil up), rfl⟩

/-- What came back once does not change any more. -/
theorem C237_stable (fold : Bytes → Bytes) (t : T) (v w : V) (hg : Good t) (hd : depth t ≤ 10000) (hv : Is t v)
    (h : jsonDecode fold t (jsonEncode t v) = (w, true)) : Is t w ∧ Plain t w ∧ jsonDecode fold t (jsonEncode t w) = (w, true) := by
  have hw : Is t w := by
    have := store_is fold (jOf t v) t (zero t) (is_zero t)
    rw [← decode_encode fold t t v hg hd hv, h] at this
    exact this
  have hp := plain_back t v w hv (((C237_back fold t v hg hd hv).2 w).2 h)
  exact ⟨hw, hp, C237_roundtrip fold t w hg hd hw hp⟩

example : jsonDecode up exT (jsonEncode exT (.struct [.int 1, .nil, .nil])) = (.struct [.int 1, .nil, .nil], true) :=
  (C237_stable up exT (.struct [.int 1, .list [] [], .nil]) _ exT_good (by decide) ⟨_, rfl, _, _, rfl, ⟨_, rfl, by unfold InRange; decide⟩, _, _, rfl,
    .inr ⟨_, _, rfl, by simp, by simp⟩, _, _, rfl, .inl rfl, rfl⟩ (C237_omitempty_nil up)).2.2

/-- Different values are written differently. -/
theorem C237_injective (t : T) (v w : V) (hg : Good t) (hd : depth t ≤ 10000) (hv : Is t v) (hw : Is t w) (hpv : Plain t v) (hpw : Plain t w)
    (h : jsonEncode t v = jsonEncode t w) : v = w := by
  have h1 := C237_roundtrip id t v hg hd hv hpv
  rw [h, C237_roundtrip id t w hg hd hw hpw] at h1
  simpa using h1.symm

example : jsonEncode exT exV ≠ jsonEncode exT (zero exT) := fun h => by
  have := C237_injective exT exV (zero exT) exT_good (by decide) exV_is (is_zero exT) exV_plain (zero_plain exT) h
  simp [exV, exT, exF, zero, zeros] at this

/-! ## C238: other versions of a type -/

/-- A program that knows another version of the type gets the view of `Spec.JsonStruct.View`. -/
theorem C238_view (fold : Bytes → Bytes) (t u : T) (v w : V) (ht : Good t) (hu : Good u) (hd : depth t ≤ 10000) (hv : Is t v) (h : View fold t u v w) :
    jsonDecode fold u (jsonEncode t v) = (w, true) := by
  rw [decode_encode fold t u v ht hd hv]
  exact view_store fold h ht hu hv

/-- An `int32` taken for a `**uint64`. -/
example : jsonDecode up (.ptr (.ptr (.int false 64))) (jsonEncode (.int true 32) (.int 5)) = (.ptr (.ptr (.int 5)), true) := by
  refine C238_view up _ _ _ _ ⟨by decide, by decide⟩ ⟨by decide, by decide⟩ (by decide) ⟨5, rfl, by unfold InRange; decide⟩ ?_
  have hn : ¬ Null (.int 5) := by intro h; cases h
  exact .toPtr _ _ _ _ hn (.toPtr _ _ _ _ hn (.int true false 32 64 5 (by unfold InRange; decide)))

/-- The new version has a further field: what the old version wrote is read, and the field is zero. -/
theorem C238_added (fold : Bytes → Bytes) (fs : Fields) (f : Field) (l : List V) (hg : Good (.struct (fs.snoc f))) (hd : depth (.struct fs) ≤ 10000)
    (hv : Is (.struct fs) (.struct l)) (hp : Plain (.struct fs) (.struct l)) :
    jsonDecode fold (.struct (fs.snoc f)) (jsonEncode (.struct fs) (.struct l)) = (.struct (l ++ [zero f.t]), true) := by
  obtain ⟨_, hl, hv'⟩ := hv
  cases hl
  have hg' := (good_snoc fs f).1 hg.2
  have hn := hg.1
  rw [snoc_toList, List.map_append, List.nodup_append] at hn
  exact C238_view fold (.struct fs) (.struct (fs.snoc f)) _ _ ⟨hn.1, hg'.1⟩ hg hd ⟨_, rfl, hv'⟩ (view_snoc fold fs f l hg hv' (hp l rfl))

example : jsonDecode up (.struct (exF.snoc ⟨[120], false, .map .bool⟩)) (jsonEncode exT exV) =
    (.struct [.int (-7), .list [.str [97], .str []] [], .ptr (.bool true), .nil], true) := by
  refine C238_added up exF ⟨[120], false, .map .bool⟩ _ ?_ (by decide) exV_is exV_plain
  refine ⟨by decide, ?_⟩
  rw [good_snoc]
  exact ⟨exT_good.2, text1 _ (by decide), trivial⟩

/-- The old version does not know the further field: what the new version wrote is read without it. -/
theorem C238_removed (fold : Bytes → Bytes) (fs : Fields) (f : Field) (l : List V) (x : V) (hg : Good (.struct (fs.snoc f)))
    (hf : ∀ g ∈ fs.toList, fold g.name ≠ fold f.name) (hd : depth (.struct (fs.snoc f)) ≤ 10000) (hv : Is (.struct fs) (.struct l)) (hx : Is f.t x)
    (hp : Plain (.struct fs) (.struct l)) :
    jsonDecode fold (.struct fs) (jsonEncode (.struct (fs.snoc f)) (.struct (l ++ [x]))) = (.struct l, true) := by
  obtain ⟨_, hl, hv'⟩ := hv
  cases hl
  have hg' := (good_snoc fs f).1 hg.2
  have hn := hg.1
  rw [snoc_toList, List.map_append, List.nodup_append] at hn
  exact C238_view fold (.struct (fs.snoc f)) (.struct fs) _ _ hg ⟨hn.1, hg'.1⟩ hd ⟨_, rfl, isF_snoc fs f l x hv' hx⟩
    (view_init fold fs f l x hg'.1 hf hv' (hp l rfl))

example : jsonDecode up exT (jsonEncode (.struct (exF.snoc ⟨[120], false, .map .bool⟩))
    (.struct [.int (-7), .list [.str [97], .str []] [], .ptr (.bool true), .map [([107], .bool true)]])) = (exV, true) := by
  refine C238_removed up exF ⟨[120], false, .map .bool⟩ [.int (-7), .list [.str [97], .str []] [], .ptr (.bool true)] (.map [([107], .bool true)]) ?_ (by decide) (by decide)
    exV_is (.inr ⟨_, rfl, by simp, by simp [Is]⟩) exV_plain
  refine ⟨by decide, ?_⟩
  rw [good_snoc]
  exact ⟨exT_good.2, text1 _ (by decide), trivial⟩

/-- The claim that what a program with an older version reads and writes again is still complete. -/
def C238_claim : Prop := ∀ (fold : Bytes → Bytes) (fs : Fields) (f : Field) (v w : V), Good (.struct (fs.snoc f)) → Is (.struct (fs.snoc f)) v →
  jsonDecode fold (.struct fs) (jsonEncode (.struct (fs.snoc f)) v) = (w, true) →
    jsonDecode fold (.struct (fs.snoc f)) (jsonEncode (.struct fs) w) = (v, true)

theorem C238_claim_false : ¬ C238_claim := by
  intro h
  have := h id .nil ⟨[97], false, .bool⟩ (.struct [.bool true]) (.struct [])
    ⟨by decide, text1 _ (by decide), trivial, trivial⟩ ⟨_, rfl, _, _, rfl, ⟨_, rfl⟩, rfl⟩ rfl
  have e : jsonDecode id (.struct (Fields.nil.snoc ⟨[97], false, .bool⟩)) (jsonEncode (.struct .nil) (.struct [])) = (.struct [.bool false], true) := rfl
  rw [e] at this
  simp at this

/-- Integers of other sizes: the number comes through if it fits; if not there is an error, not another number. -/
theorem C238_int (fold : Bytes → Bytes) (s s' : Bool) (n n' : Nat) (i : Int) (hn : 1 ≤ n ∧ n ≤ 64) (hn' : 1 ≤ n' ∧ n' ≤ 64) (hi : InRange s n i) :
    (InRange s' n' i → jsonDecode fold (.int s' n') (jsonEncode (.int s n) (.int i)) = (.int i, true)) ∧
      (¬ InRange s' n' i → jsonDecode fold (.int s' n') (jsonEncode (.int s n) (.int i)) = (.int 0, false)) := by
  refine ⟨fun h => C238_view fold (.int s n) (.int s' n') _ _ hn hn' (by simp [depth]) ⟨i, rfl, hi⟩ (.int s s' n n' i h), fun h => ?_⟩
  rw [decode_encode fold (.int s n) (.int s' n') (.int i) hn (by simp [depth]) ⟨i, rfl, hi⟩]
  have h1 := itoa_int hi hn
  simp only [jOf, store, peel, zero, wrap, cur]
  cases hp : parseNum s' n' (Gofer.Json.itoa i) with
  | none => rfl
  | some x =>
    exfalso
    obtain ⟨k1, k2⟩ := (parseNum_iff s' n' _ x (intDoc_num h1)).1 hp
    have : x = i := by
      obtain ⟨ds, m, a1, a2⟩ := h1
      obtain ⟨ds', m', b1, b2⟩ := k1
      have no : ∀ (ds ds' : Bytes) (m m' : Nat), Gofer.Spec.Json.NatDoc ds m → Gofer.Spec.Json.NatDoc ds' m' → ds = 45 :: ds' → False := by
        intro ds ds' m m' h h' he
        have := h.2.1 45 (by rw [he]; simp)
        exact absurd this (by decide)
      have same : ∀ (ds ds' : Bytes) (m m' : Nat), Gofer.Spec.Json.NatDoc ds m → Gofer.Spec.Json.NatDoc ds' m' → ds = ds' → m = m' := by
        intro ds ds' m m' h h' he
        rw [h.2.2.2, h'.2.2.2, he]
      rcases a2 with ⟨a2, a3⟩ | ⟨_, a2, a3⟩ <;> rcases b2 with ⟨b2, b3⟩ | ⟨_, b2, b3⟩
      · rw [a3, b3, same ds ds' m m' a1 b1 (a2.symm.trans b2)]
      · exact (no ds ds' m m' a1 b1 (a2.symm.trans b2)).elim
      · exact (no ds' ds m' m b1 a1 (b2.symm.trans a2)).elim
      · rw [a2] at b2
        simp only [List.cons.injEq, true_and] at b2
        rw [a3, b3, same ds ds' m m' a1 b1 b2]
    subst this
    exact h k2

example : jsonDecode up (.int false 8) (jsonEncode (.int true 32) (.int 300)) = (.int 0, false) :=
  (C238_int up true false 32 8 300 (by decide) (by decide) (by unfold InRange; decide)).2 (by unfold InRange; decide)

/-! ## C239: members and fields -/

/-- Each field is set by the member that names it, to what this member's value alone is decoded to; without such a member it is zero. -/
theorem C239_fields (fold : Bytes → Bytes) (fs : Fields) (ms : List (Bytes × J)) (bs : Bytes) (hg : Good (.struct fs)) (h : Document (.obj ms) bs)
    (hd : depthM ms < 10000) :
    ∃ l ok, jsonDecode fold (.struct fs) bs = (.struct l, ok) ∧ l.length = fs.toList.length ∧
      (∀ (i : Nat) (f : Field), fs.toList[i]? = some f → (∀ e ∈ ms, ¬ Names fold fs.toList e.1 i) → l[i]? = some (zero f.t)) ∧
      (∀ (i : Nat) (f : Field) (a b : List (Bytes × J)) (k : Bytes) (x : J) (bs' : Bytes), fs.toList[i]? = some f → ms = a ++ (k, x) :: b →
        Names fold fs.toList k i → (∀ e ∈ a ++ b, ¬ Names fold fs.toList e.1 i) → Document x bs' → l[i]? = some (jsonDecode fold f.t bs').1) := by
  refine ⟨_, _, decode_obj fold fs ms bs h hd, by rw [storeF_length fold _ _ _ (zeros_length fs), zeros_length], ?_, ?_⟩
  · intro i f hf hn
    rw [storeF_skip fold _ _ _ (zeros_length fs) i (fun e he h => hn e he ((find_iff fold hg.1 e.1 i).1 h)), zeros_get hf]
  · intro i f a b k x bs' hf hms hk hn hx
    have hdx : x.depth ≤ Gofer.Json.maxDepth := by
      have := depthM_mem ms (k, x) (by rw [hms]; simp)
      simp only [] at this
      unfold Gofer.Json.maxDepth
      omega
    rw [decode_document fold f.t x bs' hx hdx]
    subst hms
    obtain ⟨v, h1, h2⟩ := storeF_last fold fs.toList (zeros fs) a b k x (zeros_length fs) i f ((find_iff fold hg.1 k i).2 hk) hf
      (fun e he h => hn e (by simp [he]) ((find_iff fold hg.1 e.1 i).1 h))
    rw [storeF_skip fold _ _ _ (zeros_length fs) i (fun e he h => hn e (by simp [he]) ((find_iff fold hg.1 e.1 i).1 h)), zeros_get hf] at h1
    simp only [Option.some.injEq] at h1
    subst h1
    exact h2

/-- `{"N":5}` is a document, and `N` names the field `n`. -/
theorem exDoc : Document (.obj [([78], .num [53])]) [123, 34, 78, 34, 58, 53, 125] := by
  refine ⟨[], [123, 34, 78, 34, 58, 53, 125], [], rfl, space_nil, space_nil, ?_⟩
  have h1 : StrDoc [78] [78] := .raw 78 [] [] (.inl (by decide)) (by decide) (by decide) (by decide) .nil
  have h2 : JDoc (.num [53]) [53] := .num _ ⟨[], [53], [], [], 5, rfl, .inl rfl, ⟨by decide, by decide, by decide, by decide⟩, .inl rfl, .inl rfl⟩
  exact .obj _ _ (.one [] [] [] [] [78] [78] [53] (.num [53]) space_nil space_nil space_nil space_nil h1 h2)

theorem exNames : Names up exF.toList [78] 0 :=
  ⟨_, rfl, .inr ⟨by decide, by decide, by intro j g hj; omega⟩⟩

example : ∃ l ok, jsonDecode up exT [123, 34, 78, 34, 58, 53, 125] = (.struct l, ok) ∧ l[0]? = some (.int 5) ∧ l[1]? = some .nil := by
  obtain ⟨l, ok, h1, _, h2, h3⟩ := C239_fields up exF _ _ exT_good exDoc (by decide)
  refine ⟨l, ok, h1, ?_, ?_⟩
  · have := h3 0 _ [] [] [78] (.num [53]) [53] rfl rfl exNames (by simp)
      ⟨[], [53], [], rfl, space_nil, space_nil, .num _ ⟨[], [53], [], [], 5, rfl, .inl rfl, ⟨by decide, by decide, by decide, by decide⟩, .inl rfl, .inl rfl⟩⟩
    rw [this]
    rfl
  · refine h2 1 _ rfl ?_
    intro e he
    simp only [List.mem_singleton] at he
    subst he
    rintro ⟨f, hf, hn⟩
    cases hf
    rcases hn with hn | ⟨_, hn, _⟩ <;> exact absurd hn (by decide)

/-- Members that no field is named by have no effect, whatever their value is. -/
theorem C239_unknown (fold : Bytes → Bytes) (fs : Fields) (a b : List (Bytes × J)) (k : Bytes) (x : J) (bs bs' : Bytes)
    (hk : ∀ f ∈ fs.toList, fold f.name ≠ fold k) (h : Document (.obj (a ++ (k, x) :: b)) bs) (h' : Document (.obj (a ++ b)) bs')
    (hd : depthM (a ++ (k, x) :: b) < 10000) : jsonDecode fold (.struct fs) bs = jsonDecode fold (.struct fs) bs' := by
  have hd' : depthM (a ++ b) < 10000 := by
    refine lt_of_le_of_lt (depthM_le _ _ fun e he => depthM_mem _ e ?_) hd
    simp only [List.mem_append, List.mem_cons] at he ⊢
    tauto
  rw [decode_obj fold fs _ bs h hd, decode_obj fold fs _ bs' h' hd', storeF_drop fold _ _ a b k x (zeros_length fs) ((find_none fold k).2 hk)]

example : jsonDecode id exT [123, 34, 78, 34, 58, 53, 125] = jsonDecode id exT [123, 125] := by
  refine C239_unknown id exF [] [] [78] (.num [53]) _ _ (by decide) exDoc ?_ (by decide)
  exact ⟨[], [123, 125], [], rfl, space_nil, space_nil, .obj [] [] (.none [] space_nil)⟩

/-- The order of the members does not matter if no two of them name the same field. -/
theorem C239_order (fold : Bytes → Bytes) (fs : Fields) (ms ms' : List (Bytes × J)) (bs bs' : Bytes) (hg : Good (.struct fs)) (hp : ms.Perm ms')
    (ha : ms.Pairwise fun a b => ∀ i, ¬ (Names fold fs.toList a.1 i ∧ Names fold fs.toList b.1 i)) (h : Document (.obj ms) bs) (h' : Document (.obj ms') bs')
    (hd : depthM ms < 10000) : jsonDecode fold (.struct fs) bs = jsonDecode fold (.struct fs) bs' := by
  have hd' : depthM ms' < 10000 := lt_of_le_of_lt (depthM_le _ _ fun e he => depthM_mem _ e (hp.mem_iff.2 he)) hd
  have hap : Apart fold fs.toList ms := ha.imp fun {a b} h i h1 h2 => h i ⟨(find_iff fold hg.1 _ i).1 h1, (find_iff fold hg.1 _ i).1 h2⟩
  rw [decode_obj fold fs _ bs h hd, decode_obj fold fs _ bs' h' hd', storeF_perm fold _ _ ms ms' (zeros_length fs) hp hap]

/-- `{"n":1,"p":true}` and `{"p":true,"n":1}` -/
example : jsonDecode id exT [123, 34, 110, 34, 58, 49, 44, 34, 112, 34, 58, 116, 114, 117, 101, 125] =
    jsonDecode id exT [123, 34, 112, 34, 58, 116, 114, 117, 101, 44, 34, 110, 34, 58, 49, 125] := by
  have s := space_nil
  have k1 : StrDoc [110] [110] := .raw 110 [] [] (.inl (by decide)) (by decide) (by decide) (by decide) .nil
  have k2 : StrDoc [112] [112] := .raw 112 [] [] (.inl (by decide)) (by decide) (by decide) (by decide) .nil
  have d1 : JDoc (.num [49]) [49] := .num _ ⟨[], [49], [], [], 1, rfl, .inl rfl, ⟨by decide, by decide, by decide, by decide⟩, .inl rfl, .inl rfl⟩
  refine C239_order id exF [([110], .num [49]), ([112], .bool true)] [([112], .bool true), ([110], .num [49])] _ _ exT_good (.swap _ _ _) ?_
    ⟨[], _, [], rfl, s, s, .obj _ _ (.more [] [] [] [] [110] [110] [49] _ _ _ _ s s s s k1 d1 (.one [] [] [] [] [112] [112] _ _ s s s s k2 .true))⟩
    ⟨[], _, [], rfl, s, s, .obj _ _ (.more [] [] [] [] [112] [112] _ _ _ _ _ s s s s k2 .true (.one [] [] [] [] [110] [110] [49] _ s s s s k1 d1))⟩ (by decide)
  simp only [List.pairwise_cons, List.mem_singleton, forall_eq, List.not_mem_nil, false_implies, implies_true, List.Pairwise.nil, and_true]
  rintro i ⟨⟨f, h1, h2⟩, g, h3, h4⟩
  rw [h1] at h3
  cases h3
  have h5 : f.name = [110] := by
    rcases h2 with h | ⟨_, h, _⟩ <;> exact h
  have h6 : f.name = [112] := by
    rcases h4 with h | ⟨_, h, _⟩ <;> exact h
  rw [h5] at h6
  exact absurd h6 (by decide)

/-- The claim that of several members for a field the last one counts. -/
def C239_claim : Prop := ∀ (fold : Bytes → Bytes) (fs : Fields) (a b : List (Bytes × J)) (k : Bytes) (x : J) (bs bs' : Bytes) (i : Nat) (f : Field) (l : List V),
  Good (.struct fs) → Document (.obj (a ++ (k, x) :: b)) bs → depthM (a ++ (k, x) :: b) < 10000 → fs.toList[i]? = some f → Names fold fs.toList k i →
    (∀ e ∈ b, ¬ Names fold fs.toList e.1 i) → Document x bs' → jsonDecode fold (.struct fs) bs = (.struct l, true) → l[i]? = some (jsonDecode fold f.t bs').1

/-- `{"a":[true],"a":[null]}` for `struct { A []bool "a" }`: the second array is `[false]` by itself, but `[true]` here. -/
theorem C239_claim_false : ¬ C239_claim := by
  intro h
  have s := space_nil
  have k1 : StrDoc [97] [97] := .raw 97 [] [] (.inl (by decide)) (by decide) (by decide) (by decide) .nil
  have d1 : JDoc (.arr [.bool true]) (91 :: ([116, 114, 117, 101] ++ [93])) := .arr _ _ (.one [] [] _ _ s s .true)
  have d2 : JDoc (.arr [.null]) (91 :: ([110, 117, 108, 108] ++ [93])) := .arr _ _ (.one [] [] _ _ s s .null)
  have := h id (.cons [97] false (.list .bool) .nil) [([97], .arr [.bool true])] [] [97] (.arr [.null]) _ _ 0 _ [.list [.bool true] []]
    ⟨by decide, text1 _ (by decide), ⟨trivial, by intro h; cases h⟩, trivial⟩
    ⟨[], _, [], rfl, s, s, .obj _ _ (.more [] [] [] [] [97] [97] _ _ _ _ _ s s s s k1 d1 (.one [] [] [] [] [97] [97] _ _ s s s s k1 d2))⟩
    (by decide) rfl ⟨_, rfl, .inl rfl⟩ (by simp) ⟨[], _, [], rfl, s, s, d2⟩ rfl
  have e : jsonDecode id (.list .bool) (91 :: ([110, 117, 108, 108] ++ [93])) = (.list [.bool false] [], true) := rfl
  simp only [List.append_nil, List.nil_append] at this e
  rw [e] at this
  simp at this

/-- Of several members for a field the last one counts, if it says all about the value (`Whole`) and fits. -/
theorem C239_last (fold : Bytes → Bytes) (fs : Fields) (a b : List (Bytes × J)) (k : Bytes) (x : J) (bs bs' : Bytes) (i : Nat) (f : Field) (l : List V)
    (ok : Bool) (hg : Good (.struct fs)) (h : Document (.obj (a ++ (k, x) :: b)) bs) (hd : depthM (a ++ (k, x) :: b) < 10000) (hf : fs.toList[i]? = some f)
    (hk : Names fold fs.toList k i) (hb : ∀ e ∈ b, ¬ Names fold fs.toList e.1 i) (hx : Document x bs') (hw : Whole f.t x)
    (hfit : Fits fold f.t x) (hl : jsonDecode fold (.struct fs) bs = (.struct l, ok)) : l[i]? = some (jsonDecode fold f.t bs').1 := by
  have hdx : x.depth ≤ Gofer.Json.maxDepth := by
    have := depthM_mem (a ++ (k, x) :: b) (k, x) (by simp)
    simp only [] at this
    unfold Gofer.Json.maxDepth
    omega
  rw [decode_document fold f.t x bs' hx hdx]
  rw [decode_obj fold fs _ bs h hd] at hl
  simp only [Prod.mk.injEq, V.struct.injEq] at hl
  rw [← hl.1]
  obtain ⟨v, h1, h2⟩ := storeF_last fold fs.toList (zeros fs) a b k x (zeros_length fs) i f ((find_iff fold hg.1 k i).2 hk) hf
    (fun e he h => hb e he ((find_iff fold hg.1 e.1 i).1 h))
  obtain ⟨_, d, _, _, _, _, hd⟩ := hx
  rw [h2, store_whole fold hw v (zero f.t)]
  exact (ok_iff fold x f.t (zero f.t) (toList_good fs hg.2 f (List.mem_of_getElem? hf)).2 (is_zero f.t) ⟨d, hd⟩).2 hfit

/-- `{"n":1,"n":2}` -/
example : jsonDecode up exT [123, 34, 110, 34, 58, 49, 44, 34, 110, 34, 58, 50, 125] = (.struct [.int 2, .nil, .nil], true) := rfl

example : ∃ l : List V, l[0]? = some (.int 2) ∧ jsonDecode up exT [123, 34, 110, 34, 58, 49, 44, 34, 110, 34, 58, 50, 125] = (.struct l, true) := by
  have s := space_nil
  have k1 : StrDoc [110] [110] := .raw 110 [] [] (.inl (by decide)) (by decide) (by decide) (by decide) .nil
  have n1 : Gofer.Spec.Json.NatDoc [49] 1 := ⟨by decide, by decide, by decide, by decide⟩
  have n2 : Gofer.Spec.Json.NatDoc [50] 2 := ⟨by decide, by decide, by decide, by decide⟩
  have d1 : JDoc (.num [49]) [49] := .num _ ⟨[], [49], [], [], 1, rfl, .inl rfl, n1, .inl rfl, .inl rfl⟩
  have d2 : JDoc (.num [50]) [50] := .num _ ⟨[], [50], [], [], 2, rfl, .inl rfl, n2, .inl rfl, .inl rfl⟩
  refine ⟨[.int 2, .nil, .nil], ?_, rfl⟩
  exact C239_last up exF [([110], .num [49])] [] [110] (.num [50]) _ [50] 0 _ _ true exT_good
    ⟨[], _, [], rfl, s, s, .obj _ _ (.more [] [] [] [] [110] [110] [49] _ _ _ _ s s s s k1 d1 (.one [] [] [] [] [110] [110] [50] _ s s s s k1 d2))⟩
    (by decide) rfl ⟨_, rfl, .inl rfl⟩ (by simp) ⟨[], _, [], rfl, s, s, d2⟩ (.num _ _ _)
    (.int true 32 [50] 2 ⟨[50], 2, n2, .inl ⟨rfl, rfl⟩⟩ (by unfold InRange; decide)) rfl

/-- null has no effect on booleans, numbers, strings and structs, neither on the value nor on the error. -/
theorem C239_null (fold : Bytes → Bytes) (fs : Fields) (a b : List (Bytes × J)) (k : Bytes) (bs bs' : Bytes) (i : Nat) (f : Field) (hg : Good (.struct fs))
    (h : Document (.obj (a ++ (k, .null) :: b)) bs) (h' : Document (.obj (a ++ b)) bs') (hd : depthM (a ++ (k, .null) :: b) < 10000)
    (hf : fs.toList[i]? = some f) (hk : Names fold fs.toList k i) (hs : Solid f.t) : jsonDecode fold (.struct fs) bs = jsonDecode fold (.struct fs) bs' := by
  have hd' : depthM (a ++ b) < 10000 := by
    refine lt_of_le_of_lt (depthM_le _ _ fun e he => depthM_mem _ e ?_) hd
    simp only [List.mem_append, List.mem_cons] at he ⊢
    tauto
  rw [decode_obj fold fs _ bs h hd, decode_obj fold fs _ bs' h' hd', storeF_null fold _ _ a b k (zeros_length fs)]
  intro i' f' h1 h2
  rw [(find_iff fold hg.1 k i).2 hk] at h1
  cases h1
  rw [hf] at h2
  cases h2
  exact hs

/-- `{"N":5,"n":null}` is as `{"N":5}`. -/
example : jsonDecode up exT [123, 34, 78, 34, 58, 53, 44, 34, 110, 34, 58, 110, 117, 108, 108, 125] = jsonDecode up exT [123, 34, 78, 34, 58, 53, 125] := by
  have s := space_nil
  have k1 : StrDoc [78] [78] := .raw 78 [] [] (.inl (by decide)) (by decide) (by decide) (by decide) .nil
  have k2 : StrDoc [110] [110] := .raw 110 [] [] (.inl (by decide)) (by decide) (by decide) (by decide) .nil
  have d1 : JDoc (.num [53]) [53] := .num _ ⟨[], [53], [], [], 5, rfl, .inl rfl, ⟨by decide, by decide, by decide, by decide⟩, .inl rfl, .inl rfl⟩
  exact C239_null up exF [([78], .num [53])] [] [110] _ _ 0 _ exT_good
    ⟨[], _, [], rfl, s, s, .obj _ _ (.more [] [] [] [] [78] [78] [53] _ _ _ _ s s s s k1 d1 (.one [] [] [] [] [110] [110] _ _ s s s s k2 .null))⟩ exDoc (by decide) rfl
    ⟨_, rfl, .inl rfl⟩ (.inr (.inr (.inl ⟨_, _, rfl⟩)))

/-- Two objects for one field (a struct or a map, also behind pointers) are as one object with the members of both. -/
theorem C239_merge (fold : Bytes → Bytes) (fs : Fields) (a b c x y : List (Bytes × J)) (k k' : Bytes) (bs bs' : Bytes) (i : Nat) (hg : Good (.struct fs))
    (h : Document (.obj (a ++ (k, .obj x) :: (b ++ (k', .obj y) :: c))) bs) (h' : Document (.obj (a ++ (k, .obj (x ++ y)) :: (b ++ c))) bs')
    (hd : depthM (a ++ (k, .obj x) :: (b ++ (k', .obj y) :: c)) < 10000) (hd' : depthM (a ++ (k, .obj (x ++ y)) :: (b ++ c)) < 10000)
    (hk : Names fold fs.toList k i) (hk' : Names fold fs.toList k' i) (hb : ∀ e ∈ b, ¬ Names fold fs.toList e.1 i) :
    jsonDecode fold (.struct fs) bs = jsonDecode fold (.struct fs) bs' := by
  rw [decode_obj fold fs _ bs h hd, decode_obj fold fs _ bs' h' hd', storeF_merge fold fs a b c k k' x y i ((find_iff fold hg.1 k i).2 hk)
    ((find_iff fold hg.1 k' i).2 hk') (fun e he h => hb e he ((find_iff fold hg.1 e.1 i).1 h))]

/-- `{"m":{"N":true},"m":{"n":true}}` and `{"m":{"N":true,"n":true}}` for `struct { M map[string]bool "m" }`. -/
example : jsonDecode up (.struct (.cons [109] false (.map .bool) .nil))
      [123, 34, 109, 34, 58, 123, 34, 78, 34, 58, 116, 114, 117, 101, 125, 44, 34, 109, 34, 58, 123, 34, 110, 34, 58, 116, 114, 117, 101, 125, 125] =
    jsonDecode up (.struct (.cons [109] false (.map .bool) .nil))
      [123, 34, 109, 34, 58, 123, 34, 78, 34, 58, 116, 114, 117, 101, 44, 34, 110, 34, 58, 116, 114, 117, 101, 125, 125] := by
  have s := space_nil
  have k1 : StrDoc [78] [78] := .raw 78 [] [] (.inl (by decide)) (by decide) (by decide) (by decide) .nil
  have k2 : StrDoc [110] [110] := .raw 110 [] [] (.inl (by decide)) (by decide) (by decide) (by decide) .nil
  have k3 : StrDoc [109] [109] := .raw 109 [] [] (.inl (by decide)) (by decide) (by decide) (by decide) .nil
  have m1 := JMembers.one [] [] [] [] [78] [78] _ _ s s s s k1 JDoc.true
  have m2 := JMembers.one [] [] [] [] [110] [110] _ _ s s s s k2 JDoc.true
  have m3 := JMembers.more [] [] [] [] [78] [78] _ _ _ _ _ s s s s k1 JDoc.true m2
  exact C239_merge up (.cons [109] false (.map .bool) .nil) [] [] [] [([78], .bool true)] [([110], .bool true)] [109] [109] _ _ 0
    ⟨by decide, text1 _ (by decide), trivial, trivial⟩
    ⟨[], _, [], rfl, s, s, .obj _ _ (.more [] [] [] [] [109] [109] _ _ _ _ _ s s s s k3 (.obj _ _ m1) (.one [] [] [] [] [109] [109] _ _ s s s s k3 (.obj _ _ m2)))⟩
    ⟨[], _, [], rfl, s, s, .obj _ _ (.one [] [] [] [] [109] [109] _ _ s s s s k3 (.obj _ _ m3))⟩ (by decide) (by decide) ⟨_, rfl, .inl rfl⟩ ⟨_, rfl, .inl rfl⟩ (by simp)

/-! ## C240: errors -/

/-- There is no error exactly if the bytes are a document that is not nested too deeply and what it says fits the type. -/
theorem C240_ok (fold : Bytes → Bytes) (t : T) (bs : Bytes) (hg : Good t) :
    (jsonDecode fold t bs).2 = true ↔ ∃ j, Document j bs ∧ j.depth ≤ 10000 ∧ Fits fold t j := by
  have key : ∀ j, Document j bs → j.depth ≤ 10000 → ((jsonDecode fold t bs).2 = true ↔ Fits fold t j) := by
    intro j h hd
    rw [decode_document fold t j bs h hd]
    obtain ⟨_, d, _, _, _, _, hd⟩ := h
    exact ok_iff fold j t (zero t) hg (is_zero t) ⟨d, hd⟩
  constructor
  · intro h
    rcases decode_cases fold t bs with ⟨j, h1, h2, _⟩ | ⟨_, h1⟩
    · exact ⟨j, h1, h2, (key j h1 h2).1 h⟩
    · rw [h1] at h
      simp at h
  · rintro ⟨j, h1, h2, h3⟩
    exact (key j h1 h2).2 h3

example : (jsonDecode up exT [123, 34, 78, 34, 58, 53, 125]).2 = true := by
  refine (C240_ok up exT _ exT_good).2 ⟨_, exDoc, by decide, .struct _ _ ?_⟩
  intro e he i f hi hf
  simp only [List.mem_singleton] at he
  subst he
  have := (find_iff up exT_good.1 [78] i).2 hi
  have e0 : find up [78] exF.toList = some 0 := rfl
  rw [e0] at this
  cases this
  cases hf
  exact .int true 32 [53] 5 ⟨[53], 5, ⟨by decide, by decide, by decide, by decide⟩, .inl ⟨rfl, rfl⟩⟩ (by unfold InRange; decide)

/-- A document says one thing only. -/
theorem C240_unique (j j' : J) (bs : Bytes) (h : Document j bs) (h' : Document j' bs) (hd : j.depth ≤ 10000) (hd' : j'.depth ≤ 10000) : j = j' := by
  have read : ∀ j, Document j bs → j.depth ≤ 10000 → ∃ tr, (Gofer.Json.value (2 * bs.length + 2) 0 bs).map (·.1) = some tr ∧ mean tr = j := by
    rintro j ⟨w, d, w', rfl, hw, hw', h⟩ hd
    obtain ⟨tr, h1, h2⟩ := doc_read h (2 * (w ++ (d ++ w')).length + 2) 0 w w' hw
      (by have := Gofer.Json.ends_space w' [] hw' (by intro b hb; simp at hb); rwa [List.append_nil] at this) (by unfold Gofer.Json.maxDepth; omega)
      (by simp only [List.length_append]; omega)
    exact ⟨tr, by rw [h1]; rfl, h2⟩
  obtain ⟨t1, h1, h2⟩ := read j h hd
  obtain ⟨t2, h3, h4⟩ := read j' h' hd'
  rw [h1] at h3
  cases h3
  exact h2.symm.trans h4

example : ¬ Document (.bool true) [123, 34, 78, 34, 58, 53, 125] := fun h => by
  have := C240_unique _ _ _ exDoc h (by decide) (by simp [J.depth])
  cases this

/-- Bytes that are no document give the zero value and an error: nothing is stored before the whole has been checked. -/
theorem C240_syntax (fold : Bytes → Bytes) (t : T) (bs : Bytes) (h : ¬ ∃ j, Document j bs ∧ j.depth ≤ 10000) : jsonDecode fold t bs = (zero t, false) := by
  rcases decode_cases fold t bs with ⟨j, h1, h2, _⟩ | ⟨_, h1⟩
  · exact absurd ⟨j, h1, h2⟩ h
  · exact h1

/-- `{"n":1` -/
example : jsonDecode up exT [123, 34, 110, 34, 58, 49] = (zero exT, false) := rfl

example : ¬ ∃ j, Document j [123, 34, 110, 34, 58, 49] ∧ j.depth ≤ 10000 := by
  rintro ⟨j, h1, h2⟩
  have h3 := decode_document up exT j _ h1 h2
  rcases decode_cases up (.ptr .bool) [123, 34, 110, 34, 58, 49] with ⟨j', h1', h2', h4⟩ | ⟨h, _⟩
  · have e : jsonDecode up (.ptr .bool) [123, 34, 110, 34, 58, 49] = (.nil, false) := rfl
    rw [e] at h4
    cases j' <;> simp [store, peel, nullify, wrap] at h4
  · exact h ⟨j, h1, h2⟩

/-- Whatever the bytes are, the result is a value of the type. -/
theorem C240_type (fold : Bytes → Bytes) (t : T) (bs : Bytes) : Is t (jsonDecode fold t bs).1 := by
  rcases decode_cases fold t bs with ⟨j, _, _, h⟩ | ⟨_, h⟩
  · rw [h]
    exact store_is fold j t (zero t) (is_zero t)
  · rw [h]
    exact is_zero t

example : Is exT (jsonDecode up exT [1, 2, 3]).1 := C240_type up exT _

/-- The claim that there is nothing in the value if there is an error. -/
def C240_claim : Prop := ∀ (fold : Bytes → Bytes) (t : T) (bs : Bytes), Good t → (jsonDecode fold t bs).2 = false → (jsonDecode fold t bs).1 = zero t

/-- `{"n":5,"p":1}`: `p` does not fit, and `n` is 5. -/
theorem C240_claim_false : ¬ C240_claim := by
  intro h
  have e : jsonDecode id exT [123, 34, 110, 34, 58, 53, 44, 34, 112, 34, 58, 49, 125] = (.struct [.int 5, .nil, .ptr (.bool false)], false) := rfl
  have := h id exT [123, 34, 110, 34, 58, 53, 44, 34, 112, 34, 58, 49, 125] exT_good (by rw [e])
  rw [e] at this
  simp [exT, exF, zero, zeros] at this

end Gofer.Props.JsonStruct
