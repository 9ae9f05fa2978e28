import Mathlib.Data.List.Perm.Subperm
import Mathlib.Data.List.Nodup
import Verif.Proof.GobRead
import Verif.Proof.GobStream
import Mathlib.Data.List.Nodup

/-! # Descriptions of types: helper lemmas -/
namespace Gofer.GobType
open Gofer.Gob Gofer.Spec.Gob Gofer.Spec.GobType

/-! ## One description -/

/-- What the description of a slice, map or struct says. -/
def defOf (reg : Registry) : GTy → Def
  | .slice e => .slice (reg.of e)
  | .map k e => .map (reg.of k) (reg.of e)
  | .struct _ f => .struct (fieldsOf reg f)
  | _ => .struct []

theorem fieldsOf_len (reg : Registry) : ∀ f, (fieldsOf reg f).length = (names f).length
  | .nil => rfl
  | .cons n t f => by simp [fieldsOf, names, fieldsOf_len reg f]

theorem fieldsOf_names (reg : Registry) : ∀ f, Propers f → ∀ e ∈ fieldsOf reg f, e.1.length < 2 ^ 31
  | .nil, _, e, h => by simp [fieldsOf] at h
  | .cons n t f, hp, e, h => by
    rcases List.mem_cons.1 h with rfl | h
    · exact hp.2.1
    · exact fieldsOf_names reg f hp.2.2.2 e h

theorem field_str (n : Name) : nothing .str n ∧ n = zero .str ∨ ¬ nothing .str n ∧ Plain .str n := by
  by_cases h : n = []
  · exact Or.inl ⟨h, h⟩
  · exact Or.inr ⟨h, trivial⟩

theorem field_int (x : BitVec 64) : nothing .int x ∧ x = zero .int ∨ ¬ nothing .int x ∧ Plain .int x := by
  by_cases h : x = 0
  · exact Or.inl ⟨h, h⟩
  · exact Or.inr ⟨h, trivial⟩

theorem field_nil (t : Ty) : nothing (.ptr t) (none : Option t.Val) ∧ (none : Option t.Val) = zero (.ptr t) ∨
    ¬ nothing (.ptr t) (none : Option t.Val) ∧ Plain (.ptr t) (none : Option t.Val) := Or.inl ⟨Or.inl rfl, rfl⟩

theorem field_ptr (f : Fields) (v : f.Vals) (h : Plains f v) : nothing (.ptr (.struct f)) (some v : Option f.Vals) ∧
    (some v : Option f.Vals) = zero (.ptr (.struct f)) ∨ ¬ nothing (.ptr (.struct f)) (some v : Option f.Vals) ∧ Plain (.ptr (.struct f)) (some v : Option f.Vals) := by
  refine Or.inr ⟨?_, ?_⟩
  · rintro (h | ⟨x, _, h⟩)
    · have h' : (some v : Option f.Vals) = none := h
      simp at h'
    · exact h
  · intro x hx
    obtain rfl : v = x := Option.some.inj hx
    exact h

theorem field_struct (f : Fields) (v : f.Vals) (h : Plains f v) : nothing (.struct f) v ∧ v = zero (.struct f) ∨ ¬ nothing (.struct f) v ∧ Plain (.struct f) v :=
  Or.inr ⟨id, h⟩

theorem plain_common (n : Name) (id : BitVec 64) : Plains (.cons .str (.cons .int .nil)) (n, id, ()) := ⟨field_str n, field_int id, trivial⟩

theorem plain_fields (f : List (Name × BitVec 64)) :
    nothing (.slice fieldTy) (if f = [] then none else some (f.map fun e => (e.1, e.2, ())) : Option (List fieldTy.Val)) ∧
      (if f = [] then none else some (f.map fun e => (e.1, e.2, ())) : Option (List fieldTy.Val)) = zero (.slice fieldTy) ∨
    ¬ nothing (.slice fieldTy) (if f = [] then none else some (f.map fun e => (e.1, e.2, ())) : Option (List fieldTy.Val)) ∧
      Plain (.slice fieldTy) (if f = [] then none else some (f.map fun e => (e.1, e.2, ())) : Option (List fieldTy.Val)) := by
  by_cases h : f = []
  · rw [if_pos h]
    exact Or.inl ⟨Or.inl rfl, rfl⟩
  · rw [if_neg h]
    have hne : f.map (fun e => ((e.1, e.2, ()) : Name × BitVec 64 × Unit)) ≠ [] := by simpa using h
    refine Or.inr ⟨?_, ?_, ?_⟩
    · rintro (h' | h')
      · have : (some (f.map (fun e => ((e.1, e.2, ()) : Name × BitVec 64 × Unit))) : Option _) = none := h'
        simp at this
      · exact hne (Option.some.inj h')
    · intro h'
      exact hne (Option.some.inj h')
    · intro l hl x hx
      obtain rfl : f.map (fun e => ((e.1, e.2, ()) : Name × BitVec 64 × Unit)) = l := Option.some.inj hl
      obtain ⟨e, _, rfl⟩ := List.mem_map.1 hx
      exact plain_common e.1 e.2

/-- Slices, maps and structs. -/
def Comp : GTy → Prop
  | .slice _ => True
  | .map _ _ => True
  | .struct _ _ => True
  | _ => False

mutual
theorem parts_comp : ∀ (t u : GTy), u ∈ parts t → Comp u
  | .slice t, u, h => by
    rcases List.mem_cons.1 h with rfl | h
    · trivial
    · exact parts_comp t u h
  | .map k e, u, h => by
    rcases List.mem_cons.1 h with rfl | h
    · trivial
    · rcases List.mem_append.1 h with h | h
      · exact parts_comp k u h
      · exact parts_comp e u h
  | .ptr t, u, h => parts_comp t u h
  | .struct n f, u, h => by
    rcases List.mem_cons.1 h with rfl | h
    · trivial
    · exact partss_comp f u h
  | .bool, u, h => by simp [parts] at h
  | .int _, u, h => by simp [parts] at h
  | .uint _, u, h => by simp [parts] at h
  | .float, u, h => by simp [parts] at h
  | .str, u, h => by simp [parts] at h
  | .bytes, u, h => by simp [parts] at h
theorem partss_comp : ∀ (f : GFields) (u : GTy), u ∈ partss f → Comp u
  | .nil, u, h => by simp [partss] at h
  | .cons n t f, u, h => by
    rcases List.mem_append.1 h with h | h
    · exact parts_comp t u h
    · exact partss_comp f u h
end

mutual
theorem parts_proper : ∀ (t u : GTy), Proper t → u ∈ parts t → Proper u
  | .slice t, u, hp, h => by
    rcases List.mem_cons.1 h with rfl | h
    · exact hp
    · exact parts_proper t u hp h
  | .map k e, u, hp, h => by
    rcases List.mem_cons.1 h with rfl | h
    · exact hp
    · rcases List.mem_append.1 h with h | h
      · exact parts_proper k u hp.1 h
      · exact parts_proper e u hp.2 h
  | .ptr t, u, hp, h => parts_proper t u hp h
  | .struct n f, u, hp, h => by
    rcases List.mem_cons.1 h with rfl | h
    · exact hp
    · exact partss_proper f u hp.2 h
  | .bool, u, hp, h => by simp [parts] at h
  | .int _, u, hp, h => by simp [parts] at h
  | .uint _, u, hp, h => by simp [parts] at h
  | .float, u, hp, h => by simp [parts] at h
  | .str, u, hp, h => by simp [parts] at h
  | .bytes, u, hp, h => by simp [parts] at h
theorem partss_proper : ∀ (f : GFields) (u : GTy), Propers f → u ∈ partss f → Proper u
  | .nil, u, hp, h => by simp [partss] at h
  | .cons n t f, u, hp, h => by
    rcases List.mem_append.1 h with h | h
    · exact parts_proper t u hp.2.2.1 h
    · exact partss_proper f u hp.2.2.2 h
end

mutual
theorem parts_size : ∀ (t u : GTy), u ∈ parts t → sizeOf u ≤ sizeOf t
  | .slice t, u, h => by
    rcases List.mem_cons.1 h with rfl | h
    · exact Nat.le_refl _
    · have := parts_size t u h
      simp only [GTy.slice.sizeOf_spec]
      omega
  | .map k e, u, h => by
    rcases List.mem_cons.1 h with rfl | h
    · exact Nat.le_refl _
    · simp only [GTy.map.sizeOf_spec]
      rcases List.mem_append.1 h with h | h
      · have := parts_size k u h
        omega
      · have := parts_size e u h
        omega
  | .ptr t, u, h => by
    have := parts_size t u h
    simp only [GTy.ptr.sizeOf_spec]
    omega
  | .struct n f, u, h => by
    rcases List.mem_cons.1 h with rfl | h
    · exact Nat.le_refl _
    · have := partss_size f u h
      simp only [GTy.struct.sizeOf_spec]
      omega
  | .bool, u, h => by simp [parts] at h
  | .int _, u, h => by simp [parts] at h
  | .uint _, u, h => by simp [parts] at h
  | .float, u, h => by simp [parts] at h
  | .str, u, h => by simp [parts] at h
  | .bytes, u, h => by simp [parts] at h
theorem partss_size : ∀ (f : GFields) (u : GTy), u ∈ partss f → sizeOf u ≤ sizeOf f
  | .nil, u, h => by simp [partss] at h
  | .cons n t f, u, h => by
    simp only [GFields.cons.sizeOf_spec]
    rcases List.mem_append.1 h with h | h
    · have := parts_size t u h
      omega
    · have := partss_size f u h
      omega
end

theorem plain_describe (reg : Registry) (t : GTy) (ht : Comp t) : Plain wireTy (describe reg t) := by
  cases t with
  | slice e => exact ⟨field_nil _, field_ptr _ _ ⟨field_struct _ _ (plain_common _ _), field_int _, trivial⟩, field_nil _, field_nil _, field_nil _,
      field_nil _, field_nil _, trivial⟩
  | map k e => exact ⟨field_nil _, field_nil _, field_nil _, field_ptr _ _ ⟨field_struct _ _ (plain_common _ _), field_int _, field_int _, trivial⟩,
      field_nil _, field_nil _, field_nil _, trivial⟩
  | struct n f => exact ⟨field_nil _, field_nil _, field_ptr _ _ ⟨field_struct _ _ (plain_common _ _), plain_fields _, trivial⟩, field_nil _,
      field_nil _, field_nil _, field_nil _, trivial⟩
  | _ => exact absurd ht id

theorem shallow_describe (reg : Registry) (t : GTy) (ht : Comp t) : shallow (describe reg t) = some (defOf reg t) := by
  cases t with
  | slice e => rfl
  | map k e => rfl
  | struct n f =>
    show some (Def.struct (((if fieldsOf reg f = [] then none else some ((fieldsOf reg f).map fun e => (e.1, e.2, ())) :
      Option (List (Name × BitVec 64 × Unit))).getD []).map fun e => (e.1, e.2.1))) = some (Def.struct (fieldsOf reg f))
    by_cases h : fieldsOf reg f = []
    · rw [if_pos h, h]
      rfl
    · rw [if_neg h]
      simp only [Option.getD_some, List.map_map]
      exact congrArg (fun l => some (Def.struct l)) (List.map_id _)
  | _ => exact absurd ht id

theorem exists_nil (t : Ty) : Exists (.ptr t) (none : Option t.Val) := by
  intro x h
  have h' : (none : Option t.Val) = some x := h
  simp at h'

theorem exists_ptr (t : Ty) (v : t.Val) (h : Exists t v) : Exists (.ptr t) (some v : Option t.Val) := by
  intro x hx
  obtain rfl : v = x := Option.some.inj hx
  exact h

theorem exists_common (n : Name) (id : BitVec 64) (h : n.length < 2 ^ 31) : Exists commonTy (n, id, ()) :=
  ⟨by simp [count], Nat.lt_trans h (by norm_num), trivial, trivial⟩

theorem exists_fields (f : List (Name × BitVec 64)) (h1 : f.length < 2 ^ 31) (h2 : ∀ e ∈ f, e.1.length < 2 ^ 31) :
    Exists (.slice fieldTy) (if f = [] then none else some (f.map fun e => (e.1, e.2, ())) : Option (List fieldTy.Val)) := by
  intro l hl
  by_cases h : f = []
  · rw [if_pos h] at hl
    have h' : (none : Option (List fieldTy.Val)) = some l := hl
    simp at h'
  · rw [if_neg h] at hl
    obtain rfl : f.map (fun e => ((e.1, e.2, ()) : Name × BitVec 64 × Unit)) = l := Option.some.inj hl
    refine ⟨?_, ?_⟩
    · have : (f.map (fun e => ((e.1, e.2, ()) : Name × BitVec 64 × Unit))).length = f.length := by simp
      have h3 : (f.map (fun e => ((e.1, e.2, ()) : Name × BitVec 64 × Unit))).length < 2 ^ 63 := by
        rw [this]
        exact Nat.lt_trans h1 (by norm_num)
      exact h3
    · intro x hx
      obtain ⟨e, he, rfl⟩ := List.mem_map.1 hx
      exact exists_common e.1 e.2 (h2 e he)

theorem exists_describe (reg : Registry) (t : GTy) (ht : Comp t) (hp : Proper t) (hn : (reg.name t).length < 2 ^ 31) :
    Exists wireTy (describe reg t) := by
  cases t with
  | slice e => exact ⟨by simp [count], exists_nil _, exists_ptr _ _ ⟨by simp [count], exists_common _ _ hn, trivial, trivial⟩, exists_nil _, exists_nil _,
      exists_nil _, exists_nil _, exists_nil _, trivial⟩
  | map k e => exact ⟨by simp [count], exists_nil _, exists_nil _, exists_nil _, exists_ptr _ _ ⟨by simp [count], exists_common _ _ hn, trivial, trivial, trivial⟩,
      exists_nil _, exists_nil _, exists_nil _, trivial⟩
  | struct n f => exact ⟨by simp [count], exists_nil _, exists_nil _, exists_ptr _ _ ⟨by simp [count], exists_common _ _ hn,
      exists_fields _ (by rw [fieldsOf_len]; exact hp.1) (fieldsOf_names reg f hp.2), trivial⟩, exists_nil _, exists_nil _, exists_nil _, exists_nil _, trivial⟩
  | _ => exact absurd ht id

theorem whole_nil (t : Ty) : ¬ NilElement (.ptr t) (none : Option t.Val) := by
  rintro ⟨x, h, _⟩
  have h' : (none : Option t.Val) = some x := h
  simp at h'

theorem whole_ptr (t : Ty) (v : t.Val) (h : ¬ NilElement t v) : ¬ NilElement (.ptr t) (some v : Option t.Val) := by
  rintro ⟨x, hx, hn⟩
  obtain rfl : v = x := Option.some.inj hx
  exact h hn

theorem whole_cons (t : Ty) (f : Fields) (v : t.Val) (w : f.Vals) (h : ¬ NilElement t v) (h' : ¬ NilElements f w) : ¬ NilElements (.cons t f) (v, w) := by
  rintro (h1 | h1)
  · exact h h1
  · exact h' h1

theorem whole_none (w : Fields.nil.Vals) : ¬ NilElements .nil w := id

theorem whole_common (n : Name) (id : BitVec 64) : ¬ NilElement commonTy (n, id, ()) :=
  whole_cons .str (.cons .int .nil) n (id, ()) (fun h => h) (whole_cons .int .nil id () (fun h => h) (whole_none ()))

theorem whole_fields (f : List (Name × BitVec 64)) :
    ¬ NilElement (.slice fieldTy) (if f = [] then none else some (f.map fun e => (e.1, e.2, ())) : Option (List fieldTy.Val)) := by
  rintro ⟨l, hl, x, hx, h⟩
  by_cases hf : f = []
  · rw [if_pos hf] at hl
    have h' : (none : Option (List fieldTy.Val)) = some l := hl
    simp at h'
  · rw [if_neg hf] at hl
    obtain rfl : f.map (fun e => ((e.1, e.2, ()) : Name × BitVec 64 × Unit)) = l := Option.some.inj hl
    obtain ⟨e, he, rfl⟩ := List.mem_map.1 hx
    rcases h with h | h
    · have : false = true := h
      simp at this
    · exact whole_common e.1 e.2 h

theorem whole_describe (reg : Registry) (t : GTy) (ht : Comp t) : ¬ NilElement wireTy (describe reg t) := by
  cases t with
  | slice e =>
    exact whole_cons _ _ _ _ (whole_nil _) (whole_cons _ _ _ _ (whole_ptr _ _ (whole_cons commonTy _ _ _ (whole_common _ _)
      (whole_cons .int _ _ _ (fun h => h) (whole_none ())))) (whole_cons _ _ _ _ (whole_nil _) (whole_cons _ _ _ _ (whole_nil _)
      (whole_cons _ _ _ _ (whole_nil _) (whole_cons _ _ _ _ (whole_nil _) (whole_cons _ _ _ _ (whole_nil _) (whole_none ())))))))
  | map k e =>
    exact whole_cons _ _ _ _ (whole_nil _) (whole_cons _ _ _ _ (whole_nil _) (whole_cons _ _ _ _ (whole_nil _)
      (whole_cons _ _ _ _ (whole_ptr _ _ (whole_cons commonTy _ _ _ (whole_common _ _)
      (whole_cons .int _ _ _ (fun h => h) (whole_cons .int _ _ _ (fun h => h) (whole_none ())))))
      (whole_cons _ _ _ _ (whole_nil _) (whole_cons _ _ _ _ (whole_nil _) (whole_cons _ _ _ _ (whole_nil _) (whole_none ())))))))
  | struct n f =>
    exact whole_cons _ _ _ _ (whole_nil _) (whole_cons _ _ _ _ (whole_nil _) (whole_cons _ _ _ _ (whole_ptr _ _ (whole_cons commonTy _ _ _ (whole_common _ _)
      (whole_cons (.slice fieldTy) _ _ _ (whole_fields _) (whole_none ())))) (whole_cons _ _ _ _ (whole_nil _)
      (whole_cons _ _ _ _ (whole_nil _) (whole_cons _ _ _ _ (whole_nil _) (whole_cons _ _ _ _ (whole_nil _) (whole_none ())))))))
  | _ => exact absurd ht id

/-- A description is read as it was written. -/
theorem get_described (reg : Registry) (t : GTy) (ht : Comp t) (hp : Proper t) (hn : (reg.name t).length < 2 ^ 31) :
    get wireTy (described reg t).2 = some (describe reg t, []) := by
  show get wireTy ((put wireTy (describe reg t)).getD []) = _
  cases h : put wireTy (describe reg t) with
  | none =>
    rcases (put_none wireTy _).1 h with h | h
    · have : false = true := h
      simp at this
    · exact absurd h (whole_describe reg t ht)
  | some bs =>
    have := get_put wireTy (describe reg t) bs [] (exists_describe reg t ht hp hn) h
    rw [List.append_nil, (back_eq_iff wireTy _).2 (plain_describe reg t ht)] at this
    exact this

/-! ## All descriptions -/

theorem table_append : ∀ (a b : List (BitVec 64 × List UInt8)) (tb : List (BitVec 64 × Def)),
    table tb (a ++ b) = (table tb a).bind fun tb' => table tb' b
  | [], b, tb => rfl
  | (nid, c) :: a, b, tb => by
    rw [List.cons_append, table, table]
    split
    · rfl
    · split
      · rfl
      · split
        · rfl
        · split
          · rfl
          · exact table_append a b _

theorem lookup_mem {α : Type} (tb : List (BitVec 64 × α)) (i : BitVec 64) : i ∉ tb.map Prod.fst → tb.lookup i = none := by
  induction tb with
  | nil => simp
  | cons e tb ih =>
    intro h
    simp only [List.map_cons, List.mem_cons, not_or] at h
    have : (i == e.1) = false := by simpa using h.1
    obtain ⟨k, d⟩ := e
    rw [List.lookup_cons]
    simp only at this
    rw [this]
    exact ih h.2

/-- The descriptions received say what they should. -/
def Right (reg : Registry) (P : List GTy) (tb : List (BitVec 64 × Def)) : Prop :=
  ∀ u ∈ P, reg.id u ∈ tb.map Prod.fst → tb.lookup (reg.id u) = some (defOf reg u)

/-- The types within smaller types that have been received have been received. -/
def Closed (reg : Registry) (P : List GTy) (tb : List (BitVec 64 × Def)) (m : Nat) : Prop :=
  ∀ u ∈ P, reg.id u ∈ tb.map Prod.fst → sizeOf u ≤ m → ∀ c ∈ parts u, reg.id c ∈ tb.map Prod.fst

/-- What has been received after the types of a list have been sent. -/
structure After (reg : Registry) (P : List GTy) (tb tb' : List (BitVec 64 × Def)) (L : List GTy) : Prop where
  more : ∀ i ∈ tb.map Prod.fst, i ∈ tb'.map Prod.fst
  right : Right reg P tb'
  all : ∀ c ∈ L, reg.id c ∈ tb'.map Prod.fst
  new : ∀ u ∈ P, reg.id u ∈ tb'.map Prod.fst → reg.id u ∈ tb.map Prod.fst ∨ ∀ c ∈ parts u, reg.id c ∈ tb'.map Prod.fst

theorem After.closed {reg : Registry} {P : List GTy} {tb tb' : List (BitVec 64 × Def)} {L : List GTy} {m : Nat} (h : After reg P tb tb' L)
    (hc : Closed reg P tb m) : Closed reg P tb' m := by
  intro u hu hi hs c hm
  rcases h.new u hu hi with h' | h'
  · exact h.more _ (hc u hu h' hs c hm)
  · exact h' c hm

theorem After.trans {reg : Registry} {P : List GTy} {a b c : List (BitVec 64 × Def)} {L M : List GTy} (h : After reg P a b L)
    (h' : After reg P b c M) : After reg P a c (L ++ M) where
  more i hi := h'.more i (h.more i hi)
  right := h'.right
  all x hx := by
    rcases List.mem_append.1 hx with hx | hx
    · exact h'.more _ (h.all x hx)
    · exact h'.all x hx
  new u hu hi := by
    rcases h'.new u hu hi with h1 | h1
    · rcases h.new u hu h1 with h2 | h2
      · exact Or.inl h2
      · exact Or.inr fun c hc => h'.more _ (h2 c hc)
    · exact Or.inr h1

/-- All that is needed of the process. -/
structure Fine (reg : Registry) (P : List GTy) : Prop where
  ids : ∀ t ∈ P, 64 ≤ (reg.id t).toNat
  inj : ∀ t ∈ P, ∀ u ∈ P, reg.id t = reg.id u → t = u
  names : ∀ t ∈ P, (reg.name t).length < 2 ^ 31
  comp : ∀ t ∈ P, Comp t
  proper : ∀ t ∈ P, Proper t

/-- A type that has been sent already. -/
theorem after_old {reg : Registry} {P : List GTy} {tb : List (BitVec 64 × Def)} {t : GTy} (ht : t ∈ P) (hr : Right reg P tb)
    (hc : Closed reg P tb (sizeOf t)) (hs : reg.id t ∈ tb.map Prod.fst) : After reg P tb tb (parts t) where
  more _ h := h
  right := hr
  all := hc t ht hs (Nat.le_refl _)
  new _ _ h := Or.inl h

theorem right_cons {reg : Registry} {P : List GTy} (hP : Fine reg P) {tb : List (BitVec 64 × Def)} {t : GTy} (ht : t ∈ P) (hr : Right reg P tb) :
    Right reg P ((reg.id t, defOf reg t) :: tb) := by
  intro u hu hi
  rw [List.lookup_cons]
  by_cases h : reg.id u = reg.id t
  · obtain rfl := hP.inj u hu t ht h
    simp
  · have hb : (reg.id u == reg.id t) = false := by simpa using h
    rw [hb]
    refine hr u hu ?_
    rcases List.mem_cons.1 hi with hi | hi
    · exact absurd hi h
    · exact hi

theorem closed_cons {reg : Registry} {P : List GTy} (hP : Fine reg P) {tb : List (BitVec 64 × Def)} {t : GTy} (ht : t ∈ P) {m : Nat}
    (hm : m < sizeOf t) (hc : Closed reg P tb (sizeOf t)) : Closed reg P ((reg.id t, defOf reg t) :: tb) m := by
  intro u hu hi hs c hcm
  rcases List.mem_cons.1 hi with hi | hi
  · obtain rfl := hP.inj u hu t ht hi
    omega
  · exact List.mem_cons_of_mem _ (hc u hu hi (by omega) c hcm)

/-- A type that is sent before the types in it. -/
theorem after_cons {reg : Registry} {P : List GTy} (hP : Fine reg P) {tb tb' : List (BitVec 64 × Def)} {t : GTy} (ht : t ∈ P) {L : List GTy}
    (hL : parts t = t :: L) (h : After reg P ((reg.id t, defOf reg t) :: tb) tb' L) : After reg P tb tb' (parts t) where
  more i hi := h.more i (List.mem_cons_of_mem _ hi)
  right := h.right
  all c hc := by
    rw [hL] at hc
    rcases List.mem_cons.1 hc with rfl | hc
    · exact h.more _ List.mem_cons_self
    · exact h.all c hc
  new u hu hi := by
    rcases h.new u hu hi with h1 | h1
    · rcases List.mem_cons.1 h1 with h1 | h1
      · obtain rfl := hP.inj u hu t ht h1
        refine Or.inr fun c hc => ?_
        rw [hL] at hc
        rcases List.mem_cons.1 hc with rfl | hc
        · exact h.more _ List.mem_cons_self
        · exact h.all c hc
      · exact Or.inl h1
    · exact Or.inr h1

theorem table_cons {reg : Registry} {P : List GTy} (hP : Fine reg P) {tb : List (BitVec 64 × Def)} {t : GTy} (ht : t ∈ P)
    (hn : reg.id t ∉ tb.map Prod.fst) (ds : List (BitVec 64 × List UInt8)) :
    table tb (described reg t :: ds) = table ((reg.id t, defOf reg t) :: tb) ds := by
  have hg := get_described reg t (hP.comp t ht) (hP.proper t ht) (hP.names t ht)
  have he : described reg t = (-(reg.id t), (described reg t).2) := rfl
  have h64 := hP.ids t ht
  rw [he]
  unfold table
  rw [BitVec.neg_neg, if_neg (by rw [lookup_mem _ _ hn]; simp; omega), hg]
  simp only [ne_eq, not_true_eq_false, if_false, shallow_describe reg t (hP.comp t ht)]
  cases ds <;> rfl

mutual
/-- Sending a type. -/
theorem send_after (reg : Registry) (P : List GTy) (hP : Fine reg P) : ∀ (t : GTy) (tb : List (BitVec 64 × Def)), (∀ u ∈ parts t, u ∈ P) →
    Right reg P tb → Closed reg P tb (sizeOf t) → ∃ tb', table tb (send reg t (tb.map Prod.fst)).1 = some tb' ∧
      tb'.map Prod.fst = (send reg t (tb.map Prod.fst)).2 ∧ After reg P tb tb' (parts t)
  | .ptr t, tb, hs, hr, hc => send_after reg P hP t tb hs hr (by
      intro u hu hi hm
      refine hc u hu hi ?_
      simp only [GTy.ptr.sizeOf_spec]
      omega)
  | .slice e, tb, hs, hr, hc => by
    have ht : GTy.slice e ∈ P := hs _ List.mem_cons_self
    by_cases h : reg.id (.slice e) ∈ tb.map Prod.fst
    · rw [send, if_pos h]
      exact ⟨tb, rfl, rfl, after_old ht hr hc h⟩
    · rw [send, if_neg h]
      obtain ⟨tb', h1, h2, h3⟩ := send_after reg P hP e ((reg.id (.slice e), defOf reg (.slice e)) :: tb)
        (fun u hu => hs u (List.mem_cons_of_mem _ hu)) (right_cons hP ht hr) (closed_cons hP ht (by simp) hc)
      refine ⟨tb', ?_, h2, after_cons hP ht rfl h3⟩
      simp only
      rw [table_cons hP ht h]
      exact h1
  | .map k e, tb, hs, hr, hc => by
    have ht : GTy.map k e ∈ P := hs _ List.mem_cons_self
    by_cases h : reg.id (.map k e) ∈ tb.map Prod.fst
    · rw [send, if_pos h]
      exact ⟨tb, rfl, rfl, after_old ht hr hc h⟩
    · rw [send, if_neg h]
      have c1 := closed_cons hP ht (m := sizeOf k) (by simp only [GTy.map.sizeOf_spec]; omega) hc
      have c2 := closed_cons hP ht (m := sizeOf e) (by simp only [GTy.map.sizeOf_spec]; omega) hc
      obtain ⟨tb1, h1, h2, h3⟩ := send_after reg P hP k ((reg.id (.map k e), defOf reg (.map k e)) :: tb)
        (fun u hu => hs u (List.mem_cons_of_mem _ (List.mem_append_left _ hu))) (right_cons hP ht hr) c1
      obtain ⟨tb2, h4, h5, h6⟩ := send_after reg P hP e tb1
        (fun u hu => hs u (List.mem_cons_of_mem _ (List.mem_append_right _ hu))) h3.right (h3.closed c2)
      rw [List.map_cons] at h1 h2
      simp only
      refine ⟨tb2, ?_, ?_, after_cons hP ht rfl (h3.trans h6)⟩
      · rw [table_cons hP ht h, table_append, h1, Option.bind_some, ← h2]
        exact h4
      · rw [h5, h2]
  | .struct n f, tb, hs, hr, hc => by
    have ht : GTy.struct n f ∈ P := hs _ List.mem_cons_self
    by_cases h : reg.id (.struct n f) ∈ tb.map Prod.fst
    · rw [send, if_pos h]
      exact ⟨tb, rfl, rfl, after_old ht hr hc h⟩
    · rw [send, if_neg h]
      obtain ⟨tb', h1, h2, h3⟩ := sendFields_after reg P hP f ((reg.id (.struct n f), defOf reg (.struct n f)) :: tb)
        (fun u hu => hs u (List.mem_cons_of_mem _ hu)) (right_cons hP ht hr) (closed_cons hP ht (by simp) hc)
      refine ⟨tb', ?_, h2, after_cons hP ht rfl h3⟩
      simp only
      rw [table_cons hP ht h]
      exact h1
  | .bool, tb, _, hr, _ => ⟨tb, rfl, rfl, fun _ h => h, hr, fun c hc => by simp [parts] at hc, fun _ _ h => Or.inl h⟩
  | .int _, tb, _, hr, _ => ⟨tb, rfl, rfl, fun _ h => h, hr, fun c hc => by simp [parts] at hc, fun _ _ h => Or.inl h⟩
  | .uint _, tb, _, hr, _ => ⟨tb, rfl, rfl, fun _ h => h, hr, fun c hc => by simp [parts] at hc, fun _ _ h => Or.inl h⟩
  | .float, tb, _, hr, _ => ⟨tb, rfl, rfl, fun _ h => h, hr, fun c hc => by simp [parts] at hc, fun _ _ h => Or.inl h⟩
  | .str, tb, _, hr, _ => ⟨tb, rfl, rfl, fun _ h => h, hr, fun c hc => by simp [parts] at hc, fun _ _ h => Or.inl h⟩
  | .bytes, tb, _, hr, _ => ⟨tb, rfl, rfl, fun _ h => h, hr, fun c hc => by simp [parts] at hc, fun _ _ h => Or.inl h⟩
theorem sendFields_after (reg : Registry) (P : List GTy) (hP : Fine reg P) : ∀ (f : GFields) (tb : List (BitVec 64 × Def)),
    (∀ u ∈ partss f, u ∈ P) → Right reg P tb → Closed reg P tb (sizeOf f) → ∃ tb', table tb (sendFields reg f (tb.map Prod.fst)).1 = some tb' ∧
      tb'.map Prod.fst = (sendFields reg f (tb.map Prod.fst)).2 ∧ After reg P tb tb' (partss f)
  | .nil, tb, _, hr, _ => ⟨tb, rfl, rfl, fun _ h => h, hr, fun c hc => by simp [partss] at hc, fun _ _ h => Or.inl h⟩
  | .cons n t f, tb, hs, hr, hc => by
    have c1 : Closed reg P tb (sizeOf t) := by
      intro u hu hi hm
      refine hc u hu hi ?_
      simp only [GFields.cons.sizeOf_spec]
      omega
    have c2 : Closed reg P tb (sizeOf f) := by
      intro u hu hi hm
      refine hc u hu hi ?_
      simp only [GFields.cons.sizeOf_spec]
      omega
    obtain ⟨tb1, h1, h2, h3⟩ := send_after reg P hP t tb (fun u hu => hs u (List.mem_append_left _ hu)) hr c1
    obtain ⟨tb2, h4, h5, h6⟩ := sendFields_after reg P hP f tb1 (fun u hu => hs u (List.mem_append_right _ hu)) h3.right (h3.closed c2)
    rw [sendFields]
    simp only
    refine ⟨tb2, ?_, ?_, h3.trans h6⟩
    · rw [table_append, h1, Option.bind_some, ← h2]
      exact h4
    · rw [h5, h2]
end

/-! ## The type of a number -/

mutual
/-- How deep a type is. -/
def depth : GTy → Nat
  | .slice t => depth t + 1
  | .map k e => max (depth k) (depth e) + 1
  | .ptr t => depth t
  | .struct _ f => depths f + 1
  | _ => 0
def depths : GFields → Nat
  | .nil => 0
  | .cons _ t f => max (depth t) (depths f)
end

mutual
/-- There are as many different types within a type as it is deep. -/
theorem chain : ∀ t : GTy, ∃ l : List GTy, l.length = depth t ∧ (∀ u ∈ l, u ∈ parts t) ∧ l.Nodup
  | .slice t => by
    obtain ⟨l, h1, h2, h3⟩ := chain t
    refine ⟨.slice t :: l, by simp [depth, h1], ?_, List.nodup_cons.2 ⟨fun h => ?_, h3⟩⟩
    · intro u hu
      rcases List.mem_cons.1 hu with rfl | hu
      · exact List.mem_cons_self
      · exact List.mem_cons_of_mem _ (h2 u hu)
    · have := parts_size t _ (h2 _ h)
      simp only [GTy.slice.sizeOf_spec] at this
      omega
  | .map k e => by
    obtain ⟨l, h1, h2, h3⟩ := chain k
    obtain ⟨m, h4, h5, h6⟩ := chain e
    by_cases h : depth k ≤ depth e
    · refine ⟨.map k e :: m, by simp [depth, h4, h], ?_, List.nodup_cons.2 ⟨fun h => ?_, h6⟩⟩
      · intro u hu
        rcases List.mem_cons.1 hu with rfl | hu
        · exact List.mem_cons_self
        · exact List.mem_cons_of_mem _ (List.mem_append_right _ (h5 u hu))
      · have := parts_size e _ (h5 _ h)
        simp only [GTy.map.sizeOf_spec] at this
        omega
    · refine ⟨.map k e :: l, ?_, ?_, List.nodup_cons.2 ⟨fun h => ?_, h3⟩⟩
      · simp only [List.length_cons, depth, h1]
        omega
      · intro u hu
        rcases List.mem_cons.1 hu with rfl | hu
        · exact List.mem_cons_self
        · exact List.mem_cons_of_mem _ (List.mem_append_left _ (h2 u hu))
      · have := parts_size k _ (h2 _ h)
        simp only [GTy.map.sizeOf_spec] at this
        omega
  | .ptr t => chain t
  | .struct n f => by
    obtain ⟨l, h1, h2, h3⟩ := chains f
    refine ⟨.struct n f :: l, by simp [depth, h1], ?_, List.nodup_cons.2 ⟨fun h => ?_, h3⟩⟩
    · intro u hu
      rcases List.mem_cons.1 hu with rfl | hu
      · exact List.mem_cons_self
      · exact List.mem_cons_of_mem _ (h2 u hu)
    · have := partss_size f _ (h2 _ h)
      simp only [GTy.struct.sizeOf_spec] at this
      omega
  | .bool => ⟨[], rfl, fun u h => by simp at h, List.nodup_nil⟩
  | .int _ => ⟨[], rfl, fun u h => by simp at h, List.nodup_nil⟩
  | .uint _ => ⟨[], rfl, fun u h => by simp at h, List.nodup_nil⟩
  | .float => ⟨[], rfl, fun u h => by simp at h, List.nodup_nil⟩
  | .str => ⟨[], rfl, fun u h => by simp at h, List.nodup_nil⟩
  | .bytes => ⟨[], rfl, fun u h => by simp at h, List.nodup_nil⟩
theorem chains : ∀ f : GFields, ∃ l : List GTy, l.length = depths f ∧ (∀ u ∈ l, u ∈ partss f) ∧ l.Nodup
  | .nil => ⟨[], rfl, fun u h => by simp at h, List.nodup_nil⟩
  | .cons n t f => by
    obtain ⟨l, h1, h2, h3⟩ := chain t
    obtain ⟨m, h4, h5, h6⟩ := chains f
    by_cases h : depth t ≤ depths f
    · exact ⟨m, by simp [depths, h4, h], fun u hu => List.mem_append_right _ (h5 u hu), h6⟩
    · exact ⟨l, by simp only [depths, h1]; omega, fun u hu => List.mem_append_left _ (h2 u hu), h3⟩
end

theorem depth_le {reg : Registry} {t : GTy} {tb : List (BitVec 64 × Def)} (hinj : ∀ u ∈ parts t, ∀ v ∈ parts t, reg.id u = reg.id v → u = v)
    (h : ∀ u ∈ parts t, reg.id u ∈ tb.map Prod.fst) : depth t ≤ tb.length := by
  obtain ⟨l, h1, h2, h3⟩ := chain t
  have hn : (l.map reg.id).Nodup := List.Nodup.map_on (fun a ha b hb hab => hinj a (h2 a ha) b (h2 b hb) hab) h3
  have hs : l.map reg.id ⊆ tb.map Prod.fst := by
    intro i hi
    obtain ⟨u, hu, rfl⟩ := List.mem_map.1 hi
    exact h u (h2 u hu)
  have := (hn.subperm hs).length_le
  simpa [h1] using this

theorem builtin_none (i : BitVec 64) (h : 64 ≤ i.toNat) : builtin i = none := by
  unfold builtin
  have e : ∀ n : Nat, n < 64 → i ≠ BitVec.ofNat 64 n := by
    rintro n hn rfl
    simp at h
    omega
  exact (if_neg (e 1 (by omega))).trans ((if_neg (e 2 (by omega))).trans ((if_neg (e 3 (by omega))).trans ((if_neg (e 4 (by omega))).trans
    ((if_neg (e 5 (by omega))).trans (if_neg (e 6 (by omega)))))))

theorem resolve_builtin (tb : List (BitVec 64 × Def)) (n : Nat) (i : BitVec 64) (w : Wire) (h : builtin i = some w) : resolve tb n i = some w := by
  cases n with
  | zero => exact h
  | succ n =>
    unfold resolve
    rw [h]

theorem resolve_table (tb : List (BitVec 64 × Def)) (n : Nat) (i : BitVec 64) (d : Def) (h : 64 ≤ i.toNat) (hd : tb.lookup i = some d) :
    resolve tb (n + 1) i = (match d with
      | .slice e => (resolve tb n e).map .slice
      | .map k e =>
        match resolve tb n k, resolve tb n e with
        | some x, some y => some (.map x y)
        | _, _ => none
      | .struct f => (resolveFields (resolve tb n) f).map .struct) := by
  cases d <;> (rw [resolve, builtin_none i h]; simp only; rw [hd]; try rfl)

mutual
theorem resolve_of (reg : Registry) (tb : List (BitVec 64 × Def)) : ∀ (t : GTy) (n : Nat), (∀ u ∈ parts t, 64 ≤ (reg.id u).toNat ∧
    tb.lookup (reg.id u) = some (defOf reg u)) → depth t ≤ n → resolve tb n (reg.of t) = some (wireOf t)
  | .bool, n, _, _ => resolve_builtin tb n _ _ rfl
  | .int _, n, _, _ => resolve_builtin tb n _ _ rfl
  | .uint _, n, _, _ => resolve_builtin tb n _ _ rfl
  | .float, n, _, _ => resolve_builtin tb n _ _ rfl
  | .str, n, _, _ => resolve_builtin tb n _ _ rfl
  | .bytes, n, _, _ => resolve_builtin tb n _ _ rfl
  | .ptr t, n, h, hd => resolve_of reg tb t n h hd
  | .slice e, 0, _, hd => by simp [depth] at hd
  | .slice e, n + 1, h, hd => by
    obtain ⟨h1, h2⟩ := h _ List.mem_cons_self
    rw [show reg.of (.slice e) = reg.id (.slice e) from rfl, resolve_table tb n _ _ h1 h2]
    simp only [defOf, resolve_of reg tb e n (fun u hu => h u (List.mem_cons_of_mem _ hu)) (by simpa [depth] using hd), Option.map_some, wireOf]
  | .map k e, 0, _, hd => by simp [depth] at hd
  | .map k e, n + 1, h, hd => by
    obtain ⟨h1, h2⟩ := h _ List.mem_cons_self
    have hd' : depth k ≤ n ∧ depth e ≤ n := by
      simp only [depth] at hd
      omega
    rw [show reg.of (.map k e) = reg.id (.map k e) from rfl, resolve_table tb n _ _ h1 h2]
    simp only [defOf, resolve_of reg tb k n (fun u hu => h u (List.mem_cons_of_mem _ (List.mem_append_left _ hu))) hd'.1,
      resolve_of reg tb e n (fun u hu => h u (List.mem_cons_of_mem _ (List.mem_append_right _ hu))) hd'.2, wireOf]
  | .struct m f, 0, _, hd => by simp [depth] at hd
  | .struct m f, n + 1, h, hd => by
    obtain ⟨h1, h2⟩ := h _ List.mem_cons_self
    rw [show reg.of (.struct m f) = reg.id (.struct m f) from rfl, resolve_table tb n _ _ h1 h2]
    simp only [defOf, resolves_of reg tb f n (fun u hu => h u (List.mem_cons_of_mem _ hu)) (by simpa [depth] using hd), Option.map_some, wireOf]
theorem resolves_of (reg : Registry) (tb : List (BitVec 64 × Def)) : ∀ (f : GFields) (n : Nat), (∀ u ∈ partss f, 64 ≤ (reg.id u).toNat ∧
    tb.lookup (reg.id u) = some (defOf reg u)) → depths f ≤ n → resolveFields (resolve tb n) (fieldsOf reg f) = some (wires f)
  | .nil, _, _, _ => rfl
  | .cons m t f, n, h, hd => by
    have hd' : depth t ≤ n ∧ depths f ≤ n := by
      simp only [depths] at hd
      omega
    rw [fieldsOf, resolveFields, resolve_of reg tb t n (fun u hu => h u (List.mem_append_left _ hu)) hd'.1,
      resolves_of reg tb f n (fun u hu => h u (List.mem_append_right _ hu)) hd'.2]
    rfl
end

/-! ## What is sent -/

mutual
theorem send_mem (reg : Registry) : ∀ (t : GTy) (sent : List (BitVec 64)), ∀ d ∈ (send reg t sent).1, ∃ u ∈ parts t, d = described reg u
  | .ptr t, sent, d, h => send_mem reg t sent d h
  | .slice e, sent, d, h => by
    rw [send] at h
    split at h
    · simp at h
    · rcases List.mem_cons.1 h with rfl | h
      · exact ⟨_, List.mem_cons_self, rfl⟩
      · obtain ⟨u, hu, rfl⟩ := send_mem reg e _ d h
        exact ⟨u, List.mem_cons_of_mem _ hu, rfl⟩
  | .map k e, sent, d, h => by
    rw [send] at h
    split at h
    · simp at h
    · rcases List.mem_cons.1 h with rfl | h
      · exact ⟨_, List.mem_cons_self, rfl⟩
      · rcases List.mem_append.1 h with h | h
        · obtain ⟨u, hu, rfl⟩ := send_mem reg k _ d h
          exact ⟨u, List.mem_cons_of_mem _ (List.mem_append_left _ hu), rfl⟩
        · obtain ⟨u, hu, rfl⟩ := send_mem reg e _ d h
          exact ⟨u, List.mem_cons_of_mem _ (List.mem_append_right _ hu), rfl⟩
  | .struct n f, sent, d, h => by
    rw [send] at h
    split at h
    · simp at h
    · rcases List.mem_cons.1 h with rfl | h
      · exact ⟨_, List.mem_cons_self, rfl⟩
      · obtain ⟨u, hu, rfl⟩ := sendFields_mem reg f _ d h
        exact ⟨u, List.mem_cons_of_mem _ hu, rfl⟩
  | .bool, sent, d, h => by simp [send] at h
  | .int _, sent, d, h => by simp [send] at h
  | .uint _, sent, d, h => by simp [send] at h
  | .float, sent, d, h => by simp [send] at h
  | .str, sent, d, h => by simp [send] at h
  | .bytes, sent, d, h => by simp [send] at h
theorem sendFields_mem (reg : Registry) : ∀ (f : GFields) (sent : List (BitVec 64)), ∀ d ∈ (sendFields reg f sent).1, ∃ u ∈ partss f, d = described reg u
  | .nil, sent, d, h => by simp [sendFields] at h
  | .cons n t f, sent, d, h => by
    rw [sendFields] at h
    rcases List.mem_append.1 h with h | h
    · obtain ⟨u, hu, rfl⟩ := send_mem reg t _ d h
      exact ⟨u, List.mem_append_left _ hu, rfl⟩
    · obtain ⟨u, hu, rfl⟩ := sendFields_mem reg f _ d h
      exact ⟨u, List.mem_append_right _ hu, rfl⟩
end

theorem neg_msb (i : BitVec 64) (h : 64 ≤ i.toNat) (h' : i.toNat < 2 ^ 31) : (-i).msb = true := by
  rw [BitVec.msb_eq_decide, BitVec.toNat_neg]
  simp
  omega

theorem pos_msb (i : BitVec 64) (h' : i.toNat < 2 ^ 31) : i.msb = false := by
  rw [BitVec.msb_eq_decide]
  simp
  omega

theorem of_pos (reg : Registry) : ∀ t : GTy, (∀ u ∈ parts t, (reg.id u).toNat < 2 ^ 31) → (reg.of t).msb = false
  | .bool, _ => by unfold Registry.of; decide
  | .int _, _ => by unfold Registry.of; decide
  | .uint _, _ => by unfold Registry.of; decide
  | .float, _ => by unfold Registry.of; decide
  | .str, _ => by unfold Registry.of; decide
  | .bytes, _ => by unfold Registry.of; decide
  | .ptr t, h => of_pos reg t h
  | .slice _, h => pos_msb _ (h _ List.mem_cons_self)
  | .map _ _, h => pos_msb _ (h _ List.mem_cons_self)
  | .struct _ _, h => pos_msb _ (h _ List.mem_cons_self)

theorem lib_lawful (reg : Registry) (g : GTy) (h : Spec.GobType.Lawful reg g) : (lib reg g).Lawful where
  id_pos _ := of_pos reg g fun u hu => (h.ids u hu).2
  defs_neg _ d hd := by
    obtain ⟨u, hu, rfl⟩ := send_mem reg g [] d hd
    exact neg_msb _ (h.ids u hu).1 (h.ids u hu).2
  defs_len _ d hd := h.short d hd
  fits_own _ := rfl

/-- The type that comes out of the descriptions. -/
theorem described_type (reg : Registry) (g : GTy) (hp : Proper g) (h : Spec.GobType.Lawful reg g) :
    ∃ tb, table [] (send reg g []).1 = some tb ∧ resolve tb tb.length (reg.of g) = some (wireOf g) := by
  have hP : Fine reg (parts g) := ⟨fun t ht => (h.ids t ht).1, h.inj, h.names, fun t ht => parts_comp g t ht, fun t ht => parts_proper g t hp ht⟩
  obtain ⟨tb, h1, h2, h3⟩ := send_after reg (parts g) hP g [] (fun _ h => h) (fun u _ hi => by simp at hi) (fun u _ hi => by simp at hi)
  refine ⟨tb, h1, resolve_of reg tb g tb.length (fun u hu => ⟨(h.ids u hu).1, h3.right u hu (h3.all u hu)⟩) ?_⟩
  exact depth_le h.inj h3.all

end Gofer.GobType
