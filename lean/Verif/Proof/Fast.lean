import Verif.Spec.Fast
/-!
# Proofs about strings that share memory with slices
-/
namespace Gofer.Fast
open Gofer.GoSlice

theorem get_alloc {h : Heap} {d : List UInt8} {j : Nat} (hj : j < h.arrays.length) : (h.alloc d).1.get j = h.get j := by
  simp only [Heap.alloc, Heap.get, List.getD_eq_getElem?_getD]
  rw [List.getElem?_append_left hj]

theorem length_alloc (h : Heap) (d : List UInt8) : (h.alloc d).1.arrays.length = h.arrays.length + 1 := by simp [Heap.alloc]

theorem get_write_ne {h : Heap} {i pos j : Nat} {d : List UInt8} (hj : j ≠ i) : (h.write i pos d).get j = h.get j := by
  simp only [Heap.write, Heap.get, List.getD_eq_getElem?_getD]
  rw [List.getElem?_set_ne (Ne.symm hj)]

theorem write_nil (h : Heap) (i pos : Nat) : h.write i pos [] = h := by
  obtain ⟨l⟩ := h
  simp only [Heap.write, Heap.get, List.append_nil, List.length_nil, Nat.add_zero, List.take_append_drop, Heap.mk.injEq]
  by_cases hi : i < l.length
  · rw [List.getD_eq_getElem?_getD, List.getElem?_eq_getElem hi]
    simp
  · rw [List.set_eq_of_length_le (by omega)]

theorem length_write (h : Heap) (i pos : Nat) (d : List UInt8) : (h.write i pos d).arrays.length = h.arrays.length := by simp [Heap.write]

/-- The bytes of a string without bytes. -/
theorem bytes_zero {h : Heap} {t : Str} (ht : t.len = 0) : t.bytes h = [] := by simp [Str.bytes, ht]

theorem bytes_get {h h' : Heap} {t : Str} (e : h.get t.arr = h'.get t.arr) : t.bytes h = t.bytes h' := by unfold Str.bytes; rw [e]

structure Inv (s : St) (o : List Origin) : Prop where
  alive : s.dead = false
  cnt : o.length = s.sls.length
  lits : s.lits ≤ s.heap.arrays.length
  strs : ∀ t ∈ s.strs, t.len = 0 ∨ t.arr < s.heap.arrays.length
  sls : ∀ (i : Nat) (b : Slice), s.sls[i]? = some b → b.len ≤ b.cap ∧ (b.cap = 0 ∨ b.arr < s.heap.arrays.length)
  own : ∀ (i : Nat) (b : Slice), s.sls[i]? = some b → o[i]? = some .own → b.cap = 0 ∨ (s.lits ≤ b.arr ∧ ∀ t ∈ s.strs, t.len = 0 ∨ t.arr ≠ b.arr)
  whole : ∀ (i : Nat) (b : Slice), s.sls[i]? = some b → o[i]? = some .whole → b.len = b.cap

theorem str_spec {s : St} {o : List Origin} (I : Inv s o) (i : Nat) : s.str i ∈ s.strs ∨ s.str i = noStr := by
  unfold St.str
  rw [List.getD_eq_getElem?_getD]
  cases h : s.strs[i]? with
  | none => right; rfl
  | some t => left; exact List.mem_of_getElem? h

theorem str_valid {s : St} {o : List Origin} (I : Inv s o) (i : Nat) : (s.str i).len = 0 ∨ (s.str i).arr < s.heap.arrays.length := by
  rcases str_spec I i with h | h
  · exact I.strs _ h
  · left; rw [h]; rfl

theorem sl_valid {s : St} {o : List Origin} (I : Inv s o) (i : Nat) : (s.sl i).len ≤ (s.sl i).cap ∧ ((s.sl i).cap = 0 ∨ (s.sl i).arr < s.heap.arrays.length) := by
  unfold St.sl
  rw [List.getD_eq_getElem?_getD]
  cases h : s.sls[i]? with
  | none => exact ⟨Nat.le_refl _, Or.inl rfl⟩
  | some b => exact I.sls i b h

theorem sl_own {s : St} {o : List Origin} (I : Inv s o) (i : Nat) (ho : o.getD i .own = .own) :
    (s.sl i).cap = 0 ∨ (s.lits ≤ (s.sl i).arr ∧ ∀ t ∈ s.strs, t.len = 0 ∨ t.arr ≠ (s.sl i).arr) := by
  unfold St.sl
  rw [List.getD_eq_getElem?_getD]
  cases h : s.sls[i]? with
  | none => exact Or.inl rfl
  | some b =>
    refine I.own i b h ?_
    have hi : i < o.length := by rw [I.cnt]; exact (List.getElem?_eq_some_iff.1 h).1
    rw [List.getD_eq_getElem?_getD, List.getElem?_eq_getElem hi] at ho
    rw [List.getElem?_eq_getElem hi]
    exact congrArg some ho

theorem sl_whole {s : St} {o : List Origin} (I : Inv s o) (i : Nat) (ho : o.getD i .own = .whole) : (s.sl i).len = (s.sl i).cap := by
  unfold St.sl
  rw [List.getD_eq_getElem?_getD]
  cases h : s.sls[i]? with
  | none => rfl
  | some b =>
    refine I.whole i b h ?_
    have hi : i < o.length := by rw [I.cnt]; exact (List.getElem?_eq_some_iff.1 h).1
    rw [List.getD_eq_getElem?_getD, List.getElem?_eq_getElem hi] at ho
    rw [List.getElem?_eq_getElem hi]
    exact congrArg some ho

/-- The last element of a list, or one before. -/
theorem snoc_get {α : Type} {l : List α} {x y : α} {i : Nat} (h : (l ++ [x])[i]? = some y) : l[i]? = some y ∧ i < l.length ∨ i = l.length ∧ y = x := by
  by_cases hi : i < l.length
  · rw [List.getElem?_append_left hi] at h; exact Or.inl ⟨h, hi⟩
  · rw [List.getElem?_append_right (by omega)] at h
    by_cases hz : i = l.length
    · subst hz; simp at h; exact Or.inr ⟨rfl, h.symm⟩
    · have : i - l.length ≠ 0 := by omega
      rw [List.getElem?_singleton, if_neg this] at h
      exact absurd h (by simp)

/-- A new slice variable. -/
theorem inv_sl {s : St} {o : List Origin} (I : Inv s o) (b : Slice) (k : Origin) (h1 : b.len ≤ b.cap) (h2 : b.cap = 0 ∨ b.arr < s.heap.arrays.length)
    (h3 : k = .own → b.cap = 0 ∨ (s.lits ≤ b.arr ∧ ∀ t ∈ s.strs, t.len = 0 ∨ t.arr ≠ b.arr)) (h4 : k = .whole → b.len = b.cap) : Inv (s.addSl b) (o ++ [k]) := by
  refine ⟨I.alive, by simp [St.addSl, I.cnt], I.lits, I.strs, ?_, ?_, ?_⟩
  · intro i c hc
    rcases snoc_get hc with ⟨h, -⟩ | ⟨-, rfl⟩
    · exact I.sls i c h
    · exact ⟨h1, h2⟩
  · intro i c hc ho
    rcases snoc_get hc with ⟨h, hi⟩ | ⟨rfl, rfl⟩
    · rw [List.getElem?_append_left (by rw [I.cnt]; exact hi)] at ho
      exact I.own i c h ho
    · rw [← I.cnt, List.getElem?_append_right (Nat.le_refl _)] at ho
      simp at ho
      exact h3 ho
  · intro i c hc ho
    rcases snoc_get hc with ⟨h, hi⟩ | ⟨rfl, rfl⟩
    · rw [List.getElem?_append_left (by rw [I.cnt]; exact hi)] at ho
      exact I.whole i c h ho
    · rw [← I.cnt, List.getElem?_append_right (Nat.le_refl _)] at ho
      simp at ho
      exact h4 ho

/-- A new string variable with the memory of another. -/
theorem inv_str {s : St} {o : List Origin} (I : Inv s o) (t : Str) (h : t.len = 0 ∨ ∃ u ∈ s.strs, u.len ≠ 0 ∧ u.arr = t.arr) : Inv (s.addStr t) o := by
  refine ⟨I.alive, I.cnt, I.lits, ?_, I.sls, ?_, I.whole⟩
  · intro v hv
    rcases List.mem_append.1 hv with hv | hv
    · exact I.strs v hv
    · rw [List.mem_singleton] at hv
      subst hv
      rcases h with h | ⟨u, hu, hz, e⟩
      · exact Or.inl h
      · right; rw [← e]; exact (I.strs u hu).resolve_left hz
  · intro i b hb ho
    refine (I.own i b hb ho).imp id fun ⟨l, q⟩ => ⟨l, fun v hv => ?_⟩
    rcases List.mem_append.1 hv with hv | hv
    · exact q v hv
    · rw [List.mem_singleton] at hv
      subst hv
      rcases h with h | ⟨u, hu, hz, e⟩
      · exact Or.inl h
      · right; rw [← e]; exact (q u hu).resolve_left hz

/-- A new array. -/
theorem inv_alloc {s : St} {o : List Origin} (I : Inv s o) (d : List UInt8) : Inv { s with heap := (s.heap.alloc d).1 } o := by
  have e := length_alloc s.heap d
  refine ⟨I.alive, I.cnt, ?_, ?_, ?_, I.own, I.whole⟩
  · show s.lits ≤ (s.heap.alloc d).1.arrays.length
    have := I.lits; omega
  · intro t ht
    refine (I.strs t ht).imp id fun h => ?_
    show t.arr < (s.heap.alloc d).1.arrays.length
    omega
  · intro i b hb
    have := I.sls i b hb
    refine ⟨this.1, this.2.imp id fun h => ?_⟩
    show b.arr < (s.heap.alloc d).1.arrays.length
    omega

theorem inv_newStr {s : St} {o : List Origin} (I : Inv s o) (d : List UInt8) : Inv (s.newStr d) o := by
  have e := length_alloc s.heap d
  have A := inv_alloc I d
  refine ⟨I.alive, I.cnt, A.lits, ?_, A.sls, ?_, I.whole⟩
  · intro v hv
    rcases List.mem_append.1 hv with hv | hv
    · exact A.strs v hv
    · rw [List.mem_singleton] at hv
      subst hv
      right
      show s.heap.arrays.length < (s.heap.alloc d).1.arrays.length
      omega
  · intro i b hb ho
    have v := (I.sls i b hb).2
    rcases I.own i b hb ho with h | ⟨l, q⟩
    · exact Or.inl h
    · by_cases hz : b.cap = 0
      · exact Or.inl hz
      · refine Or.inr ⟨l, fun t ht => ?_⟩
        rcases List.mem_append.1 ht with ht | ht
        · exact q t ht
        · rw [List.mem_singleton] at ht
          subst ht
          right
          show s.heap.arrays.length ≠ b.arr
          have := v.resolve_left hz
          omega

/-- An array written. -/
theorem inv_write {s : St} {o : List Origin} (I : Inv s o) (a pos : Nat) (d : List UInt8) : Inv { s with heap := s.heap.write a pos d } o := by
  have e := length_write s.heap a pos d
  refine ⟨I.alive, I.cnt, ?_, ?_, ?_, I.own, I.whole⟩
  · show s.lits ≤ (s.heap.write a pos d).arrays.length
    have := I.lits; omega
  · intro t ht
    refine (I.strs t ht).imp id fun h => ?_
    show t.arr < (s.heap.write a pos d).arrays.length
    omega
  · intro i b hb
    have := I.sls i b hb
    refine ⟨this.1, this.2.imp id fun h => ?_⟩
    show b.arr < (s.heap.write a pos d).arrays.length
    omega

/-- Strings keep their text. -/
def Keeps (s s' : St) : Prop := s.strs.length ≤ s'.strs.length ∧ ∀ i, i < s.strs.length → s'.textOf i = s.textOf i

theorem keeps_of {s s' : St} {o : List Origin} (I : Inv s o) (more : List Str) (e : s'.strs = s.strs ++ more)
    (hh : ∀ t ∈ s.strs, t.len = 0 ∨ s'.heap.get t.arr = s.heap.get t.arr) : Keeps s s' := by
  refine ⟨by rw [e]; simp, fun i hi => ?_⟩
  have e1 : s'.str i = s.str i := by
    unfold St.str
    rw [e, List.getD_eq_getElem?_getD, List.getD_eq_getElem?_getD, List.getElem?_append_left hi]
  unfold St.textOf
  rw [e1]
  have hm : s.str i ∈ s.strs := by
    unfold St.str
    rw [List.getD_eq_getElem?_getD, List.getElem?_eq_getElem hi]
    exact List.getElem_mem hi
  rcases hh _ hm with h | h
  · rw [bytes_zero h, bytes_zero h]
  · exact bytes_get h

theorem get_alloc_str {s : St} {o : List Origin} (I : Inv s o) (d : List UInt8) : ∀ t ∈ s.strs, t.len = 0 ∨ (s.heap.alloc d).1.get t.arr = s.heap.get t.arr :=
  fun t ht => (I.strs t ht).imp id fun h => get_alloc h

theorem careful_step {s : St} {o : List Origin} (I : Inv s o) {op : Op} {r : List Op} (hc : Careful o (op :: r)) :
    ∃ o', Inv (step s op) o' ∧ Careful o' r ∧ Keeps s (step s op) := by
  unfold step
  rw [if_neg (by rw [I.alive]; simp)]
  cases op with
  | view i =>
    refine ⟨_, inv_sl I (stringToSlice (s.str i)) .whole (Nat.le_refl _) (str_valid I i) (by simp) fun _ => rfl, hc, keeps_of I [] ?_ ?_⟩
    · show s.strs = _; simp
    · exact fun t _ => Or.inr rfl
  | copy i =>
    have A := inv_alloc I ((s.str i).bytes s.heap)
    refine ⟨_, inv_sl A ⟨s.heap.arrays.length, 0, ((s.str i).bytes s.heap).length, ((s.str i).bytes s.heap).length⟩ .own (Nat.le_refl _) (Or.inr ?_) (fun _ => Or.inr ⟨I.lits, fun t ht => ?_⟩)
      (by simp), hc, keeps_of I [] ?_ (get_alloc_str I _)⟩
    · show s.heap.arrays.length < (s.heap.alloc _).1.arrays.length
      rw [length_alloc]; omega
    · refine (I.strs t ht).imp id fun h => ?_
      show t.arr ≠ s.heap.arrays.length
      omega
    · show s.strs = _; simp
  | text b => exact ⟨_, inv_newStr I _, hc, keeps_of I [_] rfl (get_alloc_str I _)⟩
  | cut i a b =>
    refine ⟨_, inv_str I _ ?_, hc, keeps_of I [_] rfl fun t _ => Or.inr rfl⟩
    split
    · rename_i h
      rcases str_spec I i with hm | hm
      · by_cases hz : (s.str i).len = 0
        · left; show b - a = 0; omega
        · exact Or.inr ⟨_, hm, hz, rfl⟩
      · left
        rw [hm] at h
        have : b ≤ 0 := h.2
        show b - a = 0
        omega
    · exact Or.inl rfl
  | join i j => exact ⟨_, inv_newStr I _, hc, keeps_of I [_] rfl (get_alloc_str I _)⟩
  | slice i a b =>
    refine ⟨_, inv_sl I _ (if o.getD i .own = .own then .own else .part) ?_ ?_ ?_ ?_, hc, keeps_of I [] ?_ ?_⟩
    · split
      · rename_i h; show b - a ≤ (s.sl i).cap - a; omega
      · exact Nat.le_refl _
    · split
      · exact (sl_valid I i).2.imp (fun h => by show (s.sl i).cap - a = 0; omega) id
      · exact Or.inl rfl
    · intro hk
      have ho : o.getD i .own = .own := by
        apply Decidable.byContradiction
        intro hn
        rw [if_neg hn] at hk
        exact Origin.noConfusion hk
      split
      · exact (sl_own I i ho).imp (fun h => by show (s.sl i).cap - a = 0; omega) id
      · exact Or.inl rfl
    · intro hk
      exfalso
      revert hk
      split <;> simp
    · show s.strs = _; simp
    · exact fun t _ => Or.inr rfl
  | append i bs extra =>
    have v := sl_valid I i
    have key : ∀ k : Origin, ((s.sl i).len + bs.length ≤ (s.sl i).cap → bs ≠ [] → (s.sl i).cap = 0 ∨ (s.lits ≤ (s.sl i).arr ∧ ∀ t ∈ s.strs, t.len = 0 ∨ t.arr ≠ (s.sl i).arr)) →
        (k = .own → (s.sl i).len + bs.length ≤ (s.sl i).cap → (s.sl i).cap = 0 ∨ (s.lits ≤ (s.sl i).arr ∧ ∀ t ∈ s.strs, t.len = 0 ∨ t.arr ≠ (s.sl i).arr)) →
        (k = .whole → bs = [] ∧ (s.sl i).len = (s.sl i).cap) → k ≠ .part →
        Inv (if (s.sl i).arr < s.lits ∧ (s.sl i).len + bs.length ≤ (s.sl i).cap ∧ bs ≠ [] then { s with dead := true }
          else { s with heap := (GoSlice.append s.heap (s.sl i) bs extra).1, sls := s.sls ++ [(GoSlice.append s.heap (s.sl i) bs extra).2] }) (o ++ [k]) ∧
        Keeps s (if (s.sl i).arr < s.lits ∧ (s.sl i).len + bs.length ≤ (s.sl i).cap ∧ bs ≠ [] then { s with dead := true }
          else { s with heap := (GoSlice.append s.heap (s.sl i) bs extra).1, sls := s.sls ++ [(GoSlice.append s.heap (s.sl i) bs extra).2] }) := by
      intro k h1 h2 h3 h4
      rw [if_neg (by
        rintro ⟨q1, q2, q3⟩
        have hb : 0 < bs.length := List.length_pos_iff.2 q3
        rcases h1 q2 q3 with h | h
        · omega
        · omega)]
      unfold GoSlice.append
      by_cases hf : (s.sl i).len + bs.length ≤ (s.sl i).cap
      · rw [if_pos hf]
        constructor
        · refine inv_sl (inv_write I (s.sl i).arr ((s.sl i).off + (s.sl i).len) bs) { s.sl i with len := (s.sl i).len + bs.length } k hf ?_ (fun hk => h2 hk hf) ?_
          · refine v.2.imp id fun h => ?_
            show (s.sl i).arr < (s.heap.write _ _ _).arrays.length
            rw [length_write]; exact h
          · intro hk
            obtain ⟨e, e'⟩ := h3 hk
            show (s.sl i).len + bs.length = (s.sl i).cap
            rw [e, List.length_nil]; omega
        · refine keeps_of I [] (by show s.strs = _; simp) fun t ht => ?_
          show t.len = 0 ∨ (s.heap.write (s.sl i).arr ((s.sl i).off + (s.sl i).len) bs).get t.arr = _
          by_cases hb : bs = []
          · right; rw [hb, write_nil]
          · rcases h1 hf hb with h | ⟨-, h⟩
            · have : 0 < bs.length := List.length_pos_iff.2 hb
              omega
            · exact (h t ht).imp id fun h => get_write_ne h
      · rw [if_neg hf]
        constructor
        · refine inv_sl (inv_alloc I _) ⟨s.heap.arrays.length, 0, (s.sl i).len + bs.length, (s.sl i).len + bs.length + extra⟩ k (Nat.le_add_right _ _) (Or.inr ?_)
            (fun _ => Or.inr ⟨I.lits, fun t ht => ?_⟩) ?_
          · show s.heap.arrays.length < (s.heap.alloc _).1.arrays.length
            rw [length_alloc]; omega
          · refine (I.strs t ht).imp id fun h => ?_
            show t.arr ≠ s.heap.arrays.length
            omega
          · intro hk
            obtain ⟨e, e'⟩ := h3 hk
            rw [e, List.length_nil] at hf
            omega
        · exact keeps_of I [] (by show s.strs = _; simp) (get_alloc_str I _)
    have hc' : match o.getD i .own with
      | .own => Careful (o ++ [.own]) r
      | .whole => Careful (o ++ [if bs = [] then .whole else .own]) r
      | .part => False := hc
    generalize hg : o.getD i .own = g at hc'
    cases g with
    | own =>
      have := key .own (fun _ _ => sl_own I i hg) (fun _ _ => sl_own I i hg) (by simp) (by simp)
      exact ⟨_, this.1, hc', this.2⟩
    | whole =>
      have w := sl_whole I i hg
      have nf : bs ≠ [] → ¬ (s.sl i).len + bs.length ≤ (s.sl i).cap := by
        intro hb
        have : 0 < bs.length := List.length_pos_iff.2 hb
        omega
      have := key (if bs = [] then .whole else .own) (fun q hb => absurd q (nf hb)) (fun hk q => by
        have hb : bs ≠ [] := by
          intro hb
          rw [if_pos hb] at hk
          exact Origin.noConfusion hk
        exact absurd q (nf hb)) (fun hk => by
        by_cases hb : bs = []
        · exact ⟨hb, w⟩
        · rw [if_neg hb] at hk
          exact Origin.noConfusion hk) (by split <;> simp)
      exact ⟨_, this.1, hc', this.2⟩
    | part => exact hc'.elim
  | put i k v =>
    obtain ⟨ho, hr⟩ : o.getD i .own = .own ∧ Careful o r := hc
    have w := sl_own I i ho
    have q := sl_valid I i
    by_cases h1 : (s.sl i).len ≤ k
    · simp only [if_pos h1]
      exact ⟨o, I, hr, keeps_of I [] (by simp) fun t _ => Or.inr rfl⟩
    · have w' := w.resolve_left (by omega)
      simp only [if_neg h1, if_neg (Nat.not_lt.2 w'.1)]
      exact ⟨o, inv_write I _ _ _, hr, keeps_of I [] (by simp) fun t ht => (w'.2 t ht).imp id fun h => get_write_ne h⟩

theorem inv_start (lits : List (List UInt8)) : Inv (start lits) [] := by
  refine ⟨rfl, rfl, Nat.le_refl _, ?_, ?_, ?_, ?_⟩
  · intro t ht
    simp only [start, List.mem_map, List.mem_range] at ht
    obtain ⟨i, hi, rfl⟩ := ht
    exact Or.inr hi
  · intro i b h; simp [start] at h
  · intro i b h; simp [start] at h
  · intro i b h; simp [start] at h

theorem careful_run {ops : List Op} : ∀ {s : St} {o : List Origin}, Inv s o → Careful o ops → (run s ops).dead = false ∧ Keeps s (run s ops) := by
  induction ops with
  | nil => intro s o I _; exact ⟨I.alive, Nat.le_refl _, fun _ _ => rfl⟩
  | cons op r ih =>
    intro s o I hc
    obtain ⟨o', I', hc', K⟩ := careful_step I hc
    obtain ⟨d, K'⟩ := ih I' hc'
    have e : run s (op :: r) = run (step s op) r := rfl
    rw [e]
    exact ⟨d, Nat.le_trans K.1 K'.1, fun i hi => (K'.2 i (Nat.lt_of_lt_of_le hi K.1)).trans (K.2 i hi)⟩

theorem careful_split {ops more : List Op} : ∀ {s : St} {o : List Origin}, Inv s o → Careful o (ops ++ more) → ∃ o', Inv (run s ops) o' ∧ Careful o' more := by
  induction ops with
  | nil => intro s o I h; exact ⟨o, I, h⟩
  | cons op r ih =>
    intro s o I hc
    obtain ⟨o', I', hc', -⟩ := careful_step I (r := r ++ more) hc
    exact ih I' hc'

theorem set_text {h : Heap} {t u : Str} {k : Nat} {v : UInt8} (hk : k < (t.bytes h).length) (hu : u.arr = t.arr) :
    u.bytes (h.write t.arr (t.off + k) [v]) = (((h.get t.arr).set (t.off + k) v).drop u.off).take u.len := by
  have hl : t.off + k < (h.get t.arr).length := by
    simp only [Str.bytes, List.length_take, List.length_drop] at hk
    omega
  have ha : t.arr < h.arrays.length := by
    apply Decidable.byContradiction
    intro hn
    have : h.get t.arr = [] := by
      unfold Heap.get
      rw [List.getD_eq_getElem?_getD, List.getElem?_eq_none (by omega)]
      rfl
    rw [this] at hl
    simp at hl
  have e : (h.write t.arr (t.off + k) [v]).get t.arr = (h.get t.arr).set (t.off + k) v := by
    show (h.arrays.set t.arr ((h.get t.arr).take (t.off + k) ++ [v] ++ (h.get t.arr).drop (t.off + k + 1))).getD t.arr [] = _
    rw [List.getD_eq_getElem?_getD, List.getElem?_set_self ha, Option.getD_some, List.set_eq_take_append_cons_drop, if_pos hl]
    simp
  unfold Str.bytes
  rw [hu, e]

end Gofer.Fast
