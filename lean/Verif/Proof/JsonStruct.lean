import Verif.Proof.JsonStructRead
/-!
# What is written for structs, and what is stored
-/
namespace Gofer.JsonStruct
open Gofer.Spec.Json (Bytes Text Fixed StrDoc Space NatDoc filled put)
open Gofer.Spec.JsonStruct
open Gofer.Json hiding jsonDecode jsonEncode

/-! ## What is written is a document -/

mutual
/-- What the document says that is written for a value. -/
def jOf : T → V → J
  | .bool, .bool b => .bool b
  | .int _ _, .int i => .num (itoa i)
  | .str, .str s => .str (fix s.length s)
  | .ptr t, .ptr v => jOf t v
  | .list t, .list l _ => .arr (l.map (jOf t))
  | .map t, .map l => .obj (l.map fun e => (fix e.1.length e.1, jOf t e.2))
  | .struct fs, .struct l => .obj (jFields fs l)
  | _, _ => .null

def jFields : Fields → List V → List (Bytes × J)
  | .cons n o t fs, v :: l => if o && isEmpty v then jFields fs l else (fix n.length n, jOf t v) :: jFields fs l
  | _, _ => []
end

theorem quote_doc (s : Bytes) : StrDoc (body s.length s) (fix s.length s) :=
  scanned_doc _ _ _ _ (le_refl _) (scan_body s.length s []) (unquote_body s.length _ s (le_refl _) (le_refl _))

theorem space_nil : Space [] := by intro b hb; simp at hb

theorem items_commas (l : List J) (bs : List Bytes) (h : List.Forall₂ JDoc l bs) : JItems l (commas bs) := by
  induction h with
  | nil => exact .none [] space_nil
  | cons hx hl ih =>
    cases hl with
    | nil =>
      have := JItems.one [] [] _ _ space_nil space_nil hx
      simpa [commas] using this
    | cons hy hl =>
      have := JItems.more [] [] _ _ _ _ _ space_nil space_nil hx ih
      simpa [commas] using this

def IsMember (e : Bytes × J) (b : Bytes) : Prop := ∃ q d, b = 34 :: (q ++ 34 :: 58 :: d) ∧ StrDoc q e.1 ∧ JDoc e.2 d

theorem members_commas (l : List (Bytes × J)) (bs : List Bytes) (h : List.Forall₂ IsMember l bs) : JMembers l (commas bs) := by
  induction h with
  | nil => exact .none [] space_nil
  | @cons e b l bs hx hl ih =>
    obtain ⟨q, d, rfl, hq, hd⟩ := hx
    cases hl with
    | nil =>
      have := JMembers.one [] [] [] [] q e.1 d e.2 space_nil space_nil space_nil space_nil hq hd
      simpa [commas] using this
    | cons hy hl =>
      have := JMembers.more [] [] [] [] q e.1 d _ e.2 _ _ space_nil space_nil space_nil space_nil hq hd ih
      simpa [commas] using this

theorem parseNat_fold (ds : Bytes) : parseNat ds = ds.foldl (fun n b => n * 10 + (b.toNat - 48)) 0 := rfl

theorem digits_nat (n : Nat) (h : n < 10 ^ 20) : NatDoc (digits 20 n) n := by
  obtain ⟨h1, h2, b, l, h3, h4⟩ := digits_spec 20 n h (by decide)
  refine ⟨by rw [h3]; simp, fun b hb => (isDigit_iff b).1 (h1 b hb), ?_, ?_⟩
  · rw [h3]
    intro h
    simp only [List.head?_cons, Option.some.injEq] at h
    rw [h4 h, h]
  · rw [← parseNat_fold, h2]

theorem inRange_bound {s : Bool} {n : Nat} {i : Int} (h : InRange s n i) (hn : 1 ≤ n ∧ n ≤ 64) : i.natAbs < 10 ^ 20 := by
  unfold InRange at h
  have h1 : (2 : Int) ^ (n - 1) ≤ 2 ^ 64 := by exact_mod_cast Nat.pow_le_pow_right (by decide) (by omega)
  have h2 : (2 : Int) ^ n ≤ 2 ^ 64 := by exact_mod_cast Nat.pow_le_pow_right (by decide) (by omega)
  split at h <;> omega

theorem itoa_int {s : Bool} {n : Nat} {i : Int} (h : InRange s n i) (hn : 1 ≤ n ∧ n ≤ 64) : IntDoc s (itoa i) i := by
  have hb := inRange_bound h hn
  refine ⟨digits 20 i.natAbs, i.natAbs, digits_nat _ hb, ?_⟩
  unfold itoa
  split
  · refine .inr ⟨?_, rfl, by omega⟩
    unfold InRange at h
    split at h
    · assumption
    · omega
  · exact .inl ⟨rfl, by omega⟩

theorem intDoc_num {s : Bool} {lit : Bytes} {i : Int} (h : IntDoc s lit i) : NumDoc lit := by
  obtain ⟨ds, n, h1, ⟨rfl, _⟩ | ⟨_, rfl, _⟩⟩ := h
  · exact ⟨[], lit, [], [], n, by simp, .inl rfl, h1, .inl rfl, .inl rfl⟩
  · exact ⟨[45], ds, [], [], n, by simp, .inr rfl, h1, .inl rfl, .inl rfl⟩

mutual
theorem enc_doc : ∀ (t : T) (v : V), Good t → Is t v → JDoc (jOf t v) (enc t v)
  | .bool, v, _, hv => by
    obtain ⟨b, rfl⟩ := hv
    cases b
    · exact .false
    · exact .true
  | .int s n, v, hg, hv => by
    obtain ⟨i, rfl, hi⟩ := hv
    exact .num _ (intDoc_num (itoa_int hi hg))
  | .str, v, _, hv => by
    obtain ⟨s, rfl⟩ := hv
    exact .str _ _ (quote_doc s)
  | .ptr t, v, hg, hv => by
    rcases hv with rfl | ⟨u, rfl, hu⟩
    · exact .null
    · exact enc_doc t u hg hu
  | .list t, v, hg, hv => by
    rcases hv with rfl | ⟨l, b, rfl, hl, _⟩
    · exact .null
    · have ih := fun x hx => enc_doc t x hg.1 (hl x hx)
      exact .arr _ _ (items_commas _ _ (by
        rw [List.forall₂_map_left_iff, List.forall₂_map_right_iff, List.forall₂_same]
        exact ih))
  | .map t, v, hg, hv => by
    rcases hv with rfl | ⟨l, rfl, _, hl⟩
    · exact .null
    · have ih := fun e he => enc_doc t e.2 hg (hl e he)
      exact .obj _ _ (members_commas _ _ (by
        rw [List.forall₂_map_left_iff, List.forall₂_map_right_iff, List.forall₂_same]
        intro e he
        exact ⟨_, _, by simp [quote], quote_doc e.1, ih e he⟩))
  | .struct fs, v, hg, hv => by
    obtain ⟨l, rfl, hl⟩ := hv
    exact .obj _ _ (members_commas _ _ (encFields_doc fs l hg.2 hl))

theorem encFields_doc : ∀ (fs : Fields) (l : List V), GoodF fs → IsF fs l → List.Forall₂ IsMember (jFields fs l) (encFields fs l)
  | .nil, l, _, hl => by
    cases hl
    exact .nil
  | .cons n o t fs, l, hg, hl => by
    obtain ⟨v, r, rfl, hv, hr⟩ := hl
    have h1 := enc_doc t v hg.2.1 hv
    have h2 := encFields_doc fs r hg.2.2 hr
    simp only [jFields, encFields]
    split
    · exact h2
    · exact .cons ⟨_, _, by simp [quote], quote_doc n, h1⟩ h2
end

theorem depthL_le (l : List J) (n : Nat) (h : ∀ j ∈ l, j.depth ≤ n) : depthL l ≤ n := by
  induction l with
  | nil => simp [depthL]
  | cons j l ih =>
    have h1 := h j (by simp)
    have h2 := ih (fun j hj => h j (by simp [hj]))
    simp only [depthL]
    omega

theorem depthM_le (l : List (Bytes × J)) (n : Nat) (h : ∀ e ∈ l, e.2.depth ≤ n) : depthM l ≤ n := by
  induction l with
  | nil => simp [depthM]
  | cons e l ih =>
    have h1 := h e (by simp)
    have h2 := ih (fun j hj => h j (by simp [hj]))
    obtain ⟨k, j⟩ := e
    simp only [depthM]
    simp only [] at h1
    omega

theorem depthM_mem (l : List (Bytes × J)) : ∀ e ∈ l, e.2.depth ≤ depthM l := by
  induction l with
  | nil => simp
  | cons e l ih =>
    intro x hx
    obtain ⟨k, j⟩ := e
    simp only [depthM]
    rcases List.mem_cons.1 hx with rfl | hx
    · simp
    · have := ih x hx
      omega

mutual
theorem jOf_depth : ∀ (t : T) (v : V), (jOf t v).depth ≤ depth t
  | .bool, v => by cases v <;> simp [jOf, J.depth, depth]
  | .int _ _, v => by cases v <;> simp [jOf, J.depth, depth]
  | .str, v => by cases v <;> simp [jOf, J.depth, depth]
  | .ptr t, v => by
    cases v with
    | ptr v => simpa [jOf, depth] using jOf_depth t v
    | _ => simp [jOf, J.depth]
  | .list t, v => by
    cases v with
    | list l b =>
      have ih := fun x => jOf_depth t x
      have := depthL_le (l.map (jOf t)) (depth t) (by simp; intro x _; exact ih x)
      simp only [jOf, J.depth, depth]
      omega
    | _ => simp [jOf, J.depth]
  | .map t, v => by
    cases v with
    | map l =>
      have ih := fun x => jOf_depth t x
      have := depthM_le (l.map fun e => (fix e.1.length e.1, jOf t e.2)) (depth t) (by intro e he; obtain ⟨x, _, rfl⟩ := List.mem_map.1 he; exact ih x.2)
      simp only [jOf, J.depth, depth]
      omega
    | _ => simp [jOf, J.depth]
  | .struct fs, v => by
    cases v with
    | struct l =>
      have := jFields_depth fs l
      simp only [jOf, J.depth, depth]
      omega
    | _ => simp [jOf, J.depth]

theorem jFields_depth : ∀ (fs : Fields) (l : List V), depthM (jFields fs l) ≤ depthF fs
  | .nil, l => by cases l <;> simp [jFields, depthM, depthF]
  | .cons n o t fs, [] => by simp [jFields, depthM]
  | .cons n o t fs, v :: l => by
    have h1 := jOf_depth t v
    have h2 := jFields_depth fs l
    simp only [jFields, depthF]
    split
    · omega
    · simp only [depthM]
      omega
end

theorem decode_encode (fold : Bytes → Bytes) (t u : T) (v : V) (hg : Good t) (hd : depth t ≤ 10000) (hv : Is t v) :
    jsonDecode fold u (jsonEncode t v) = store fold u (zero u) (jOf t v) := by
  have := jOf_depth t v
  refine decode_document fold u (jOf t v) _ ⟨[], enc t v, [], by simp [jsonEncode], space_nil, space_nil, enc_doc t v hg hv⟩ ?_
  unfold maxDepth
  omega

/-! ## Finding fields -/

theorem toList_zeros (fs : Fields) : zeros fs = fs.toList.map fun f => zero f.t := by
  match fs with
  | .nil => simp [zeros, Fields.toList]
  | .cons n o t fs => simp [zeros, Fields.toList, toList_zeros fs]

theorem toList_good (fs : Fields) (h : GoodF fs) : ∀ f ∈ fs.toList, Text f.name ∧ Good f.t := by
  match fs with
  | .nil => simp [Fields.toList]
  | .cons n o t fs =>
    intro f hf
    simp only [Fields.toList, List.mem_cons] at hf
    rcases hf with rfl | hf
    · exact ⟨h.1, h.2.1⟩
    · exact toList_good fs h.2.2 f hf

theorem isF_iff (fs : Fields) (l : List V) : IsF fs l ↔ List.Forall₂ (fun (f : Field) v => Is f.t v) fs.toList l := by
  match fs with
  | .nil => simp [IsF, Fields.toList]
  | .cons n o t fs =>
    simp only [IsF, Fields.toList]
    constructor
    · rintro ⟨v, r, rfl, h1, h2⟩
      exact .cons h1 ((isF_iff fs r).1 h2)
    · intro h
      cases h with
      | cons h1 h2 => exact ⟨_, _, rfl, h1, (isF_iff fs _).2 h2⟩

variable (fold : Bytes → Bytes)

theorem find_exact {fs : List Field} (hn : (fs.map (·.name)).Nodup) {i : Nat} {f : Field} (h : fs[i]? = some f) : find fold f.name fs = some i := by
  have hi : i < fs.length := by
    by_contra hc
    rw [List.getElem?_eq_none (by omega)] at h
    simp at h
  have : fs.findIdx? (fun g => g.name = f.name) = some i := by
    rw [List.findIdx?_eq_some_iff_getElem]
    rw [List.getElem?_eq_getElem hi] at h
    simp only [Option.some.injEq] at h
    refine ⟨hi, by simp [h], ?_⟩
    intro j hj
    simp only [decide_eq_true_eq]
    intro he
    have h1 : (fs.map (·.name))[j]'(by simp; omega) = (fs.map (·.name))[i]'(by simp; omega) := by simp [he, h]
    have := (List.Nodup.getElem_inj_iff hn).1 h1
    omega
  unfold find
  rw [this]

theorem find_iff {fs : List Field} (hn : (fs.map (·.name)).Nodup) (k : Bytes) (i : Nat) : find fold k fs = some i ↔ Names fold fs k i := by
  constructor
  · intro h
    unfold find at h
    cases h1 : fs.findIdx? (fun f => f.name = k) with
    | some j =>
      rw [h1] at h
      simp only [Option.some.injEq] at h
      subst h
      rw [List.findIdx?_eq_some_iff_getElem] at h1
      obtain ⟨hj, h2, _⟩ := h1
      exact ⟨fs[j], List.getElem?_eq_getElem hj, .inl (by simpa using h2)⟩
    | none =>
      rw [h1] at h
      simp only [] at h
      rw [List.findIdx?_eq_none_iff] at h1
      rw [List.findIdx?_eq_some_iff_getElem] at h
      obtain ⟨hj, h2, h3⟩ := h
      refine ⟨fs[i], List.getElem?_eq_getElem hj, .inr ⟨fun g hg => by simpa using h1 g hg, by simpa using h2, ?_⟩⟩
      intro j g hji hg
      have := h3 j hji
      rw [List.getElem?_eq_getElem (by omega)] at hg
      simp only [Option.some.injEq] at hg
      subst hg
      simpa using this
  · rintro ⟨f, hf, rfl | ⟨h1, h2, h3⟩⟩
    · exact find_exact fold hn hf
    · unfold find
      rw [List.findIdx?_eq_none_iff.2 (by simpa using h1)]
      simp only []
      have hi : i < fs.length := by
        by_contra hc
        rw [List.getElem?_eq_none (by omega)] at hf
        simp at hf
      rw [List.findIdx?_eq_some_iff_getElem]
      rw [List.getElem?_eq_getElem hi] at hf
      simp only [Option.some.injEq] at hf
      refine ⟨hi, by simp [hf, h2], ?_⟩
      intro j hj
      have := h3 j fs[j] hj (List.getElem?_eq_getElem (by omega))
      simpa using this

theorem find_none {fs : List Field} (k : Bytes) : find fold k fs = none ↔ ∀ f ∈ fs, fold f.name ≠ fold k := by
  unfold find
  constructor
  · intro h
    cases h1 : fs.findIdx? (fun f => f.name = k) with
    | some j => rw [h1] at h; simp at h
    | none =>
      rw [h1] at h
      simp only [List.findIdx?_eq_none_iff] at h
      intro f hf
      simpa using h f hf
  · intro h
    have h1 : fs.findIdx? (fun f => f.name = k) = none := by
      rw [List.findIdx?_eq_none_iff]
      intro f hf
      simp only [decide_eq_false_iff_not]
      rintro rfl
      exact h f hf rfl
    rw [h1]
    simp only [List.findIdx?_eq_none_iff]
    intro f hf
    simpa using h f hf

theorem find_lt {fs : List Field} {k : Bytes} {i : Nat} (h : find fold k fs = some i) : i < fs.length := by
  unfold find at h
  split at h
  · rename_i h1
    simp only [Option.some.injEq] at h
    subst h
    rw [List.findIdx?_eq_some_iff_getElem] at h1
    exact h1.1
  · rw [List.findIdx?_eq_some_iff_getElem] at h
    exact h.1

/-! ## The fields of a struct, one by one -/

theorem storeF_cons (fs : List Field) (vs : List V) (k : Bytes) (j : J) (l : List (Bytes × J)) (hl : vs.length = fs.length) :
    (find fold k fs = none ∧ storeF fold fs vs ((k, j) :: l) = storeF fold fs vs l) ∨
      ∃ i f v, find fold k fs = some i ∧ fs[i]? = some f ∧ vs[i]? = some v ∧
        storeF fold fs vs ((k, j) :: l) = ((storeF fold fs (vs.set i (store fold f.t v j).1) l).1,
          (store fold f.t v j).2 && (storeF fold fs (vs.set i (store fold f.t v j).1) l).2) := by
  cases h : find fold k fs with
  | none =>
    left
    refine ⟨rfl, ?_⟩
    rw [storeF, h]
  | some i =>
    right
    have hi := find_lt fold h
    refine ⟨i, fs[i], vs[i]'(by omega), rfl, List.getElem?_eq_getElem hi, List.getElem?_eq_getElem (by omega), ?_⟩
    rw [storeF, h]
    simp only []
    rw [List.getElem?_eq_getElem hi, List.getElem?_eq_getElem (by omega : i < vs.length)]

theorem storeF_length (fs : List Field) (vs : List V) (l : List (Bytes × J)) (hl : vs.length = fs.length) : (storeF fold fs vs l).1.length = vs.length := by
  induction l generalizing vs with
  | nil => simp [storeF]
  | cons e l ih =>
    obtain ⟨k, j⟩ := e
    rcases storeF_cons fold fs vs k j l hl with ⟨_, h⟩ | ⟨i, f, v, _, _, _, h⟩
    · rw [h, ih vs hl]
    · rw [h]
      simp only []
      rw [ih _ (by simpa using hl), List.length_set]

theorem storeF_skip (fs : List Field) (vs : List V) (l : List (Bytes × J)) (hl : vs.length = fs.length) (i : Nat)
    (h : ∀ e ∈ l, find fold e.1 fs ≠ some i) : (storeF fold fs vs l).1[i]? = vs[i]? := by
  induction l generalizing vs with
  | nil => simp [storeF]
  | cons e l ih =>
    obtain ⟨k, j⟩ := e
    have h1 := h _ (by simp : (k, j) ∈ (k, j) :: l)
    have h2 : ∀ e ∈ l, find fold e.1 fs ≠ some i := fun e he => h e (by simp [he])
    rcases storeF_cons fold fs vs k j l hl with ⟨_, h⟩ | ⟨i', f, v, hf, _, _, h⟩
    · rw [h, ih vs hl h2]
    · rw [h]
      simp only []
      rw [ih _ (by simpa using hl) h2, List.getElem?_set_ne]
      rintro rfl
      exact h1 hf

/-- No two members are stored in the same field. -/
def Apart (fs : List Field) (l : List (Bytes × J)) : Prop := l.Pairwise fun a b => ∀ i, find fold a.1 fs = some i → find fold b.1 fs ≠ some i

theorem storeF_at (fs : List Field) (vs : List V) (l : List (Bytes × J)) (hl : vs.length = fs.length) (ha : Apart fold fs l) (e : Bytes × J) (he : e ∈ l)
    (i : Nat) (f : Field) (v : V) (hi : find fold e.1 fs = some i) (hf : fs[i]? = some f) (hv : vs[i]? = some v) :
    (storeF fold fs vs l).1[i]? = some (store fold f.t v e.2).1 := by
  induction l generalizing vs with
  | nil => simp at he
  | cons e' l ih =>
    obtain ⟨k, j⟩ := e'
    obtain ⟨a1, a2⟩ := List.pairwise_cons.1 ha
    rcases List.mem_cons.1 he with rfl | he
    · rcases storeF_cons fold fs vs k j l hl with ⟨h0, _⟩ | ⟨i', f', v', h0, h1, h2, h⟩
      · simp only [] at hi
        rw [h0] at hi
        simp at hi
      · simp only [] at hi
        rw [h0] at hi
        simp only [Option.some.injEq] at hi
        subst hi
        rw [hf] at h1
        rw [hv] at h2
        simp only [Option.some.injEq] at h1 h2
        subst h1 h2
        rw [h]
        simp only []
        rw [storeF_skip fold fs _ l (by simpa using hl) i' (fun e he => a1 e he i' h0), List.getElem?_set_self]
        by_contra hc
        rw [List.getElem?_eq_none (by omega)] at hv
        simp at hv
    · have hne := a1 e he
      rcases storeF_cons fold fs vs k j l hl with ⟨h0, h⟩ | ⟨i', f', v', h0, h1, h2, h⟩
      · rw [h, ih vs hl a2 he hv]
      · rw [h]
        simp only []
        refine ih _ (by simpa using hl) a2 he ?_
        rw [List.getElem?_set_ne, hv]
        rintro rfl
        exact hne i' h0 hi

theorem storeF_ok (fs : List Field) (vs : List V) (l : List (Bytes × J)) (hl : vs.length = fs.length) (ha : Apart fold fs l) :
    (storeF fold fs vs l).2 = true ↔ ∀ e ∈ l, ∀ i f v, find fold e.1 fs = some i → fs[i]? = some f → vs[i]? = some v → (store fold f.t v e.2).2 = true := by
  induction l generalizing vs with
  | nil => simp [storeF]
  | cons e' l ih =>
    obtain ⟨k, j⟩ := e'
    obtain ⟨a1, a2⟩ := List.pairwise_cons.1 ha
    rcases storeF_cons fold fs vs k j l hl with ⟨h0, h⟩ | ⟨i', f', v', h0, h1, h2, h⟩
    · rw [h, ih vs hl a2]
      constructor
      · intro hh e he i f v hi hf hv
        rcases List.mem_cons.1 he with rfl | he
        · simp only [] at hi
          rw [h0] at hi
          simp at hi
        · exact hh e he i f v hi hf hv
      · intro hh e he
        exact hh e (by simp [he])
    · rw [h]
      simp only [Bool.and_eq_true]
      rw [ih _ (by simpa using hl) a2]
      have hsame : ∀ e ∈ l, ∀ i, find fold e.1 fs = some i → (vs.set i' (store fold f'.t v' j).1)[i]? = vs[i]? := by
        intro e he i hi
        rw [List.getElem?_set_ne]
        rintro rfl
        exact a1 e he i' h0 hi
      constructor
      · rintro ⟨g1, g2⟩ e he i f v hi hf hv
        rcases List.mem_cons.1 he with rfl | he
        · simp only [] at hi
          rw [h0] at hi
          simp only [Option.some.injEq] at hi
          subst hi
          rw [hf] at h1
          rw [hv] at h2
          simp only [Option.some.injEq] at h1 h2
          subst h1 h2
          exact g1
        · exact g2 e he i f v hi hf (by rw [hsame e he i hi]; exact hv)
      · intro hh
        refine ⟨hh (k, j) (by simp) i' f' v' h0 h1 h2, ?_⟩
        intro e he i f v hi hf hv
        rw [hsame e he i hi] at hv
        exact hh e (by simp [he]) i f v hi hf hv

/-! ## What is stored for a value that was written -/

theorem store_ptr (t : T) (v : V) (j : J) (h : j ≠ .null) :
    store fold (.ptr t) v j = (.ptr (store fold t (match v with | .ptr u => u | _ => zero t) j).1,
      (store fold t (match v with | .ptr u => u | _ => zero t) j).2) := by
  have hc : cur (.ptr t) v = cur t (match v with | .ptr u => u | _ => zero t) := by
    cases v <;> simp [cur]
  cases j with
  | null => exact absurd rfl h
  | bool b => simp only [store, peel, hc, wrap]; split <;> rfl
  | num lit =>
    simp only [store, peel, hc, wrap]
    split
    · split <;> rfl
    · rfl
  | str s => simp only [store, peel, hc, wrap]; split <;> rfl
  | arr l => simp only [store, peel, hc, wrap]; split <;> rfl
  | obj l => simp only [store, peel, hc, wrap]; split <;> rfl

theorem jOf_null : ∀ (t : T) (v : V), Is t v → (jOf t v = .null ↔ Null v)
  | .bool, v, h => by obtain ⟨b, rfl⟩ := h; simp [jOf]; intro h; cases h
  | .int _ _, v, h => by obtain ⟨b, rfl, _⟩ := h; simp [jOf]; intro h; cases h
  | .str, v, h => by obtain ⟨b, rfl⟩ := h; simp [jOf]; intro h; cases h
  | .ptr t, v, h => by
    rcases h with rfl | ⟨u, rfl, hu⟩
    · simp only [jOf, true_iff]; exact .nil
    · simp only [jOf]
      rw [jOf_null t u hu]
      exact ⟨.ptr u, fun h => by cases h; assumption⟩
  | .list t, v, h => by
    rcases h with rfl | ⟨l, b, rfl, _⟩
    · simp only [jOf, true_iff]; exact .nil
    · simp only [jOf, reduceCtorEq, false_iff]; intro h; cases h
  | .map t, v, h => by
    rcases h with rfl | ⟨l, rfl, _⟩
    · simp only [jOf, true_iff]; exact .nil
    · simp only [jOf, reduceCtorEq, false_iff]; intro h; cases h
  | .struct fs, v, h => by
    obtain ⟨l, rfl, _⟩ := h
    simp only [jOf, reduceCtorEq, false_iff]; intro h; cases h

theorem null_zero (u : T) : store fold u (zero u) .null = (zero u, true) := by
  cases u <;> simp [store, nullify, zero]

theorem isEmpty_iff (v : V) : isEmpty v = true ↔ Spec.JsonStruct.Empty v := by
  unfold Spec.JsonStruct.Empty
  cases v with
  | list l b => cases l <;> simp [isEmpty]
  | _ => simp [isEmpty]

theorem minus_of_nat {ds : Bytes} {n : Nat} (h : NatDoc ds n) : minus ds = ([], ds) := by
  have := minus_nat h []
  rwa [List.append_nil] at this

theorem parseNum_iff (s : Bool) (n : Nat) (lit : Bytes) (i : Int) (hl : NumDoc lit) : parseNum s n lit = some i ↔ IntDoc s lit i ∧ InRange s n i := by
  have key : ∀ ds : Bytes, ds ≠ [] → ds.all isDigit = true → (∃ s ds' fr ex m, (s = [] ∨ s = [45]) ∧ (s ++ ds = s ++ (ds' ++ (fr ++ ex))) ∧ NatDoc ds' m ∧ (fr = [] ∨ ∃ d, fr = 46 :: d ∧ Digits d) ∧
      (ex = [] ∨ ∃ e sg d, (e = 101 ∨ e = 69) ∧ (sg = [] ∨ sg = [43] ∨ sg = [45]) ∧ ex = e :: (sg ++ d) ∧ Digits d)) → NatDoc ds (parseNat ds) := by
    rintro ds h1 h2 ⟨s, ds', fr, ex, m, hs, h3, h4, h5, h6⟩
    simp only [List.append_cancel_left_eq] at h3
    rw [List.all_eq_true] at h2
    have : fr = [] := by
      rcases h5 with h | ⟨d, rfl, _⟩
      · exact h
      · have := h2 46 (by rw [h3]; simp)
        exact absurd this (by decide)
    subst this
    have : ex = [] := by
      rcases h6 with h | ⟨e, sg, d, he, _, rfl, _⟩
      · exact h
      · have := h2 e (by rw [h3]; simp)
        rcases he with rfl | rfl <;> exact absurd this (by decide)
    subst this
    simp only [List.append_nil] at h3
    subst h3
    exact ⟨h4.1, h4.2.1, h4.2.2.1, rfl⟩
  obtain ⟨sg, ds, fr, ex, m, rfl, hs, hn, hf, he⟩ := hl
  have hall : ∀ {ds : Bytes} {k : Nat}, NatDoc ds k → ds.all isDigit = true := fun h => List.all_eq_true.2 (nat_digits h)
  have hval : ∀ {ds : Bytes} {k : Nat}, NatDoc ds k → parseNat ds = k := fun h => by rw [h.2.2.2]; rfl
  have hm : minus (sg ++ (ds ++ (fr ++ ex))) = (sg, ds ++ (fr ++ ex)) := by
    rcases hs with rfl | rfl
    · exact minus_nat hn _
    · rfl
  have hne : ds ++ (fr ++ ex) ≠ [] := by simp [hn.1]
  cases s with
  | true =>
    have hp : parseNum true n (sg ++ (ds ++ (fr ++ ex))) = if (ds ++ (fr ++ ex)).all isDigit then
        if -(2 : Int) ^ (n - 1) ≤ (if sg = [45] then -(parseNat (ds ++ (fr ++ ex)) : Int) else parseNat (ds ++ (fr ++ ex))) ∧
          (if sg = [45] then -(parseNat (ds ++ (fr ++ ex)) : Int) else parseNat (ds ++ (fr ++ ex))) < 2 ^ (n - 1)
        then some (if sg = [45] then -(parseNat (ds ++ (fr ++ ex)) : Int) else parseNat (ds ++ (fr ++ ex))) else none else none := by
      simp only [parseNum, if_true, hm]
    rw [hp]
    have hir : InRange true n i ↔ -(2 : Int) ^ (n - 1) ≤ i ∧ i < 2 ^ (n - 1) := by simp [InRange]
    rw [hir]
    constructor
    · intro h
      by_cases hd : (ds ++ (fr ++ ex)).all isDigit = true
      · rw [if_pos hd] at h
        generalize hx : (if sg = [45] then -(parseNat (ds ++ (fr ++ ex)) : Int) else (parseNat (ds ++ (fr ++ ex)) : Int)) = x at h
        by_cases hr : -(2 : Int) ^ (n - 1) ≤ x ∧ x < 2 ^ (n - 1)
        · rw [if_pos hr] at h
          simp only [Option.some.injEq] at h
          subst h
          have hk := key _ hne hd ⟨sg, ds, fr, ex, m, hs, rfl, hn, hf, he⟩
          refine ⟨⟨_, _, hk, ?_⟩, hr⟩
          rcases hs with rfl | rfl
          · left
            rw [if_neg (by decide)] at hx
            simp [hx]
          · right
            rw [if_pos rfl] at hx
            simp [hx]
        · rw [if_neg hr] at h
          simp at h
      · rw [if_neg hd] at h
        simp at h
    · rintro ⟨⟨ds', k, hk, hlit⟩, hr⟩
      have hcase : (sg = [] ∧ ds' = ds ++ (fr ++ ex) ∧ i = (k : Int)) ∨ (sg = [45] ∧ ds' = ds ++ (fr ++ ex) ∧ i = -(k : Int)) := by
        rcases hlit with ⟨h1, h2⟩ | ⟨_, h1, h2⟩
        · rcases hs with rfl | rfl
          · exact .inl ⟨rfl, by simpa using h1.symm, h2⟩
          · have := nat_digits hk 45 (by rw [← h1]; simp)
            exact absurd this (by decide)
        · rcases hs with rfl | rfl
          · match ds, hn with
            | b :: ds, hn =>
              simp only [List.nil_append, List.cons_append, List.cons.injEq] at h1
              have := nat_digits hn b (by simp)
              rw [h1.1] at this
              exact absurd this (by decide)
            | [], hn => exact absurd rfl hn.1
          · exact .inr ⟨rfl, by simpa using h1.symm, h2⟩
      rcases hcase with ⟨rfl, rfl, rfl⟩ | ⟨rfl, rfl, rfl⟩
      · have e0 : ¬ (([] : Bytes) = [45]) := by decide
        simp only [if_pos (hall hk), hval hk, if_neg e0]
        rw [if_pos hr]
      · simp only [if_pos (hall hk), hval hk, if_true]
        rw [if_pos hr]
  | false =>
    simp only [parseNum, InRange]
    simp only [Bool.false_eq_true, if_false]
    constructor
    · intro h
      split at h
      · rename_i hd
        split at h
        · rename_i hr
          simp only [Option.some.injEq] at h
          subst h
          have hsg : sg = [] := by
            rcases hs with h | rfl
            · exact h
            · exact absurd hd (by simp; intro h; exact absurd h (by decide))
          subst hsg
          have hk := key _ hne hd ⟨[], ds, fr, ex, m, .inl rfl, rfl, hn, hf, he⟩
          exact ⟨⟨_, _, hk, .inl ⟨rfl, rfl⟩⟩, by omega, by exact_mod_cast hr⟩
        · simp at h
      · simp at h
    · rintro ⟨⟨ds', k, hk, hlit⟩, hr⟩
      rcases hlit with ⟨h1, h2⟩ | ⟨h0, _⟩
      · rw [h1, if_pos (hall hk), hval hk, if_pos, h2]
        rw [h2] at hr
        exact_mod_cast hr.2
      · simp at h0

theorem storeL_all (t u : T) (l l' : List V) (h : List.Forall₂ (fun v w => store fold u (zero u) (jOf t v) = (w, true)) l l') :
    storeL fold u [] (l.map (jOf t)) = (l', true) := by
  induction h with
  | nil => simp [storeL]
  | cons h1 _ ih =>
    simp only [List.map_cons, storeL, List.tail_nil, ih, List.headD_nil, h1]
    rfl

theorem storeM_all (t u : T) (l m : List (Bytes × V)) (a : List (Bytes × V))
    (h : List.Forall₂ (fun e e' => fix e.1.length e.1 = e'.1 ∧ store fold u (zero u) (jOf t e.2) = (e'.2, true)) l m) :
    storeM fold u a (l.map fun e => (fix e.1.length e.1, jOf t e.2)) = (m.foldl (fun m e => put e.1 e.2 m) a, true) := by
  induction h generalizing a with
  | nil => simp [storeM]
  | cons h1 _ ih =>
    simp only [List.map_cons, storeM, h1.1, h1.2, ih, List.foldl_cons]
    rfl

theorem jFields_mem : ∀ (fs : Fields) (l : List V) (e : Bytes × J), e ∈ jFields fs l ↔
    ∃ (i : Nat) (f : Field) (v : V), fs.toList[i]? = some f ∧ l[i]? = some v ∧ ¬ (f.brief = true ∧ Empty v) ∧ e = (fix f.name.length f.name, jOf f.t v)
  | .nil, l, e => by cases l <;> simp [jFields, Fields.toList]
  | .cons n o t fs, [], e => by simp [jFields]
  | .cons n o t fs, v :: l, e => by
    have ih := jFields_mem fs l e
    simp only [jFields, Fields.toList]
    have hcond : (o && isEmpty v) = true ↔ (o = true ∧ Empty v) := by
      rw [Bool.and_eq_true, isEmpty_iff]
    constructor
    · intro h
      split at h
      · obtain ⟨i, f, w, h1, h2, h3, h4⟩ := ih.1 h
        exact ⟨i + 1, f, w, by simpa using h1, by simpa using h2, h3, h4⟩
      · rename_i hc
        rcases List.mem_cons.1 h with rfl | h
        · exact ⟨0, _, v, by simp; rfl, by simp, fun h => hc (hcond.2 h), rfl⟩
        · obtain ⟨i, f, w, h1, h2, h3, h4⟩ := ih.1 h
          exact ⟨i + 1, f, w, by simpa using h1, by simpa using h2, h3, h4⟩
    · rintro ⟨i, f, w, h1, h2, h3, h4⟩
      match i with
      | 0 =>
        simp only [List.getElem?_cons_zero, Option.some.injEq] at h1 h2
        subst h1 h2
        rw [if_neg (fun h => h3 (hcond.1 h))]
        simp [h4]
      | i + 1 =>
        simp only [List.getElem?_cons_succ] at h1 h2
        have := ih.2 ⟨i, f, w, h1, h2, h3, h4⟩
        split
        · exact this
        · simp [this]

theorem jFields_keys : ∀ (fs : Fields) (l : List V), ((jFields fs l).map (·.1)).Sublist (fs.toList.map (fun f => fix f.name.length f.name))
  | .nil, l => by cases l <;> simp [jFields]
  | .cons n o t fs, [] => by simp [jFields]
  | .cons n o t fs, v :: l => by
    have ih := jFields_keys fs l
    simp only [jFields, Fields.toList, List.map_cons]
    split
    · exact ih.cons _
    · simp only [List.map_cons]
      exact ih.cons_cons _

theorem fix_names (fs : Fields) (h : GoodF fs) : fs.toList.map (fun f => fix f.name.length f.name) = fs.toList.map (·.name) := by
  apply List.map_congr_left
  intro f hf
  exact fix_text f.name (toList_good fs h f hf).1

theorem forall₂_of_get {A B : Type} {R : A → B → Prop} (l : List A) (l' : List B) (h1 : l.length = l'.length)
    (h2 : ∀ (i : Nat) (a : A) (b : B), l[i]? = some a → l'[i]? = some b → R a b) : List.Forall₂ R l l' := by
  induction l generalizing l' with
  | nil => match l' with
    | [] => exact .nil
    | _ :: _ => simp at h1
  | cons a l ih => match l' with
    | [] => simp at h1
    | b :: l' =>
      refine .cons (h2 0 a b rfl rfl) (ih l' (by simpa using h1) ?_)
      intro i a b ha hb
      exact h2 (i + 1) a b (by simpa using ha) (by simpa using hb)

theorem getElem?_of_forall₂ {A B : Type} {R : A → B → Prop} {l : List A} {l' : List B} (h : List.Forall₂ R l l') :
    ∀ (i : Nat) (a : A) (b : B), l[i]? = some a → l'[i]? = some b → R a b := by
  induction h with
  | nil => simp
  | cons h1 _ ih =>
    intro i a b ha hb
    match i with
    | 0 =>
      simp only [List.getElem?_cons_zero, Option.some.injEq] at ha hb
      subst ha hb
      exact h1
    | i + 1 => exact ih i a b (by simpa using ha) (by simpa using hb)

theorem view_store {t u : T} {v w : V} (h : View fold t u v w) : Good t → Good u → Is t v → store fold u (zero u) (jOf t v) = (w, true) := by
  induction h with
  | null t u v hn =>
    intro _ _ hv
    rw [(jOf_null t v hv).2 hn]
    exact null_zero fold u
  | fromPtr t u v w hn _ ih =>
    intro hg hu hv
    rcases hv with hv | ⟨_, hv, hx⟩
    · cases hv
    · cases hv
      exact ih hg hu hx
  | toPtr t u v w hn _ ih =>
    intro hg hu hv
    have := ih hg hu hv
    rw [store_ptr fold u _ _ (fun h => hn ((jOf_null t v hv).1 h))]
    simp only [zero, this]
  | bool b => intro _ _ _; simp [jOf, store, peel, wrap]
  | int s s' n n' i hi =>
    intro hg hu hv
    obtain ⟨_, hv, hi'⟩ := hv
    cases hv
    have h1 := itoa_int hi hu
    have := (parseNum_iff s' n' (itoa i) i (intDoc_num h1)).2 ⟨h1, hi⟩
    simp [jOf, store, peel, this, wrap]
  | str s s' hs =>
    intro _ _ _
    simp [jOf, store, peel, wrap, fixed_eq hs s.length (le_refl _)]
  | list t u l b l' hlen _ ih =>
    intro hg hu hv
    rcases hv with hv | ⟨_, _, hv, hl, _⟩
    · cases hv
    · cases hv
      have := storeL_all fold t u l l' (forall₂_of_get l l' hlen fun i v w h1 h2 => ih i v w h1 h2 hg.1 hu.1 (hl v (List.mem_of_getElem? h1)))
      simp only [jOf, store, peel, zero, cur, wrap, this]
      match l, l', hlen with
      | [], [], _ => simp
      | _ :: _, _ :: _, _ => simp
  | map t u l m hlen hk _ ih =>
    intro hg hu hv
    rcases hv with hv | ⟨_, hv, _, hl⟩
    · cases hv
    · cases hv
      have := storeM_all fold t u l m [] (forall₂_of_get l m hlen fun i e e' h1 h2 =>
        ⟨(fixed_eq (hk i e e' h1 h2) e.1.length (le_refl _)).symm, ih i e e' h1 h2 hg hu (hl e (List.mem_of_getElem? h1))⟩)
      simp only [jOf, store, peel, zero, cur, wrap, this]
      rfl
  | struct fs gs l l' src hlen hmatch hnone hsome hbrief _ ih =>
    intro hg hu hv
    obtain ⟨_, hv, hl⟩ := hv
    cases hv
    rw [isF_iff] at hl
    have hz : (zeros gs).length = gs.toList.length := by rw [toList_zeros]; simp
    have hfix := fix_names fs hg.2
    have hname : ∀ f ∈ fs.toList, fix f.name.length f.name = f.name := fun f hf => fix_text f.name (toList_good fs hg.2 f hf).1
    have hfind : ∀ e ∈ jFields fs l, ∀ i, find fold e.1 gs.toList = some i → ∃ g, gs.toList[i]? = some g ∧ g.name = e.1 := by
      intro e he i hi
      obtain ⟨i', f, v, h1, h2, h3, rfl⟩ := (jFields_mem fs l e).1 he
      have hf := List.mem_of_getElem? h1
      simp only [hname f hf] at hi ⊢
      rcases hmatch f hf with ⟨g, hg1, hg2⟩ | hno
      · obtain ⟨j, hj⟩ := List.getElem?_of_mem hg1
        have := find_exact fold hu.1 hj
        rw [hg2, hi] at this
        simp only [Option.some.injEq] at this
        subst this
        exact ⟨g, hj, hg2⟩
      · rw [(find_none fold f.name).2 hno] at hi
        simp at hi
    have hnd : ((jFields fs l).map (·.1)).Nodup := by
      refine List.Nodup.sublist (jFields_keys fs l) ?_
      rw [hfix]
      exact hg.1
    have hap : Apart fold gs.toList (jFields fs l) := by
      have : (jFields fs l).Pairwise fun a b => a.1 ≠ b.1 := by
        rw [List.Nodup, List.pairwise_map] at hnd
        exact hnd
      refine List.Pairwise.imp_of_mem ?_ this
      intro a b ha hb hne i hi hi'
      obtain ⟨g, h1, h2⟩ := hfind a ha i hi
      obtain ⟨g', h3, h4⟩ := hfind b hb i hi'
      rw [h1] at h3
      simp only [Option.some.injEq] at h3
      subst h3
      exact hne (h2.symm.trans h4)
    have huniq : ∀ (i j : Nat) (f f' : Field), fs.toList[i]? = some f → fs.toList[j]? = some f' → f.name = f'.name → i = j := by
      intro i j f f' h1 h2 h3
      have e1 := find_exact fold hg.1 h1
      have e2 := find_exact fold hg.1 h2
      rw [h3, e2] at e1
      simpa using e1.symm
    have hstore : ∀ e ∈ jFields fs l, ∀ i g v0, find fold e.1 gs.toList = some i → gs.toList[i]? = some g → (zeros gs)[i]? = some v0 →
        ∃ w, l'[i]? = some w ∧ store fold g.t v0 e.2 = (w, true) := by
      intro e he i g v0 hi hgi hv0
      obtain ⟨g', h1, h2⟩ := hfind e he i hi
      rw [hgi] at h1
      simp only [Option.some.injEq] at h1
      subst h1
      obtain ⟨i', f, v, h3, h4, h5, rfl⟩ := (jFields_mem fs l e).1 he
      have hf := List.mem_of_getElem? h3
      simp only [hname f hf] at h2 ⊢
      have hzv : v0 = zero g.t := by
        rw [toList_zeros, List.getElem?_map, hgi] at hv0
        simpa using hv0.symm
      subst hzv
      have hil : i < l'.length := by
        rw [hlen]
        by_contra hc
        rw [List.getElem?_eq_none (by omega)] at hgi
        simp at hgi
      have hsrc : src i = some i' := by
        cases hs : src i with
        | none => exact absurd h2.symm ((hnone i g hgi hs).1 f hf)
        | some i'' =>
          obtain ⟨f', v', k1, k2, k3⟩ := hsome i i'' g hgi hs
          rw [huniq i'' i' f' f k1 h3 (k2.trans h2)]
      refine ⟨l'[i], List.getElem?_eq_getElem hil, ?_⟩
      exact ih i i' f g v l'[i] hgi hsrc h3 h4 (List.getElem?_eq_getElem hil) h5 (toList_good fs hg.2 f hf).2
        (toList_good gs hu.2 g (List.mem_of_getElem? hgi)).2 (getElem?_of_forall₂ hl i' f v h3 h4)
    have hok : (storeF fold gs.toList (zeros gs) (jFields fs l)).2 = true := by
      rw [storeF_ok fold gs.toList (zeros gs) (jFields fs l) hz hap]
      intro e he i g v0 hi hgi hv0
      obtain ⟨w, _, h2⟩ := hstore e he i g v0 hi hgi hv0
      rw [h2]
    have hlist : (storeF fold gs.toList (zeros gs) (jFields fs l)).1 = l' := by
      apply List.ext_getElem?
      intro i
      by_cases hil : i < gs.toList.length
      · have hgi := List.getElem?_eq_getElem hil
        generalize gs.toList[i] = g at hgi
        have hzi : (zeros gs)[i]? = some (zero g.t) := by
          rw [toList_zeros, List.getElem?_map, hgi]
          rfl
        by_cases hex : ∃ e ∈ jFields fs l, find fold e.1 gs.toList = some i
        · obtain ⟨e, he, hi⟩ := hex
          obtain ⟨w, h1, h2⟩ := hstore e he i g _ hi hgi hzi
          rw [storeF_at fold gs.toList (zeros gs) (jFields fs l) hz hap e he i g _ hi hgi hzi, h2, h1]
        · rw [storeF_skip fold gs.toList (zeros gs) (jFields fs l) hz i (fun e he h => hex ⟨e, he, h⟩), hzi]
          cases hs : src i with
          | none => exact (hnone i g hgi hs).2.symm
          | some i' =>
            obtain ⟨f, v, k1, k2, k3⟩ := hsome i i' g hgi hs
            by_cases hb : f.brief = true ∧ Empty v
            · exact (hbrief i i' f g v hgi hs k1 k3 hb.1 hb.2).symm
            · exfalso
              refine hex ⟨_, (jFields_mem fs l _).2 ⟨i', f, v, k1, k3, hb, rfl⟩, ?_⟩
              show find fold (fix f.name.length f.name) gs.toList = some i
              rw [hname f (List.mem_of_getElem? k1), k2]
              exact find_exact fold hu.1 hgi
      · rw [List.getElem?_eq_none (by rw [storeF_length fold _ _ _ hz]; omega), List.getElem?_eq_none (by omega)]
    simp only [jOf, store, peel, zero, cur, wrap]
    rw [hlist, hok]

end Gofer.JsonStruct
