import Verif.Proof.Fast
/-!
# `fast.StringToSlice` (C262)

A program is a list of operations on strings and byte slices (`Op`), run from its literals; `textOf i` is the text of its string number `i`.
-/
namespace Gofer.Props.Fast
open Gofer.Fast Gofer.GoSlice

/-- **C262, what it gives**: the slice has the bytes of the string, its capacity is its length, and nothing is copied: all memory is as it was. -/
theorem C262_view {s : St} (hd : s.dead = false) (i : Nat) :
    bytes (step s (.view i)).heap ((step s (.view i)).sl s.sls.length) = s.textOf i ∧
    ((step s (.view i)).sl s.sls.length).cap = ((step s (.view i)).sl s.sls.length).len ∧ (step s (.view i)).heap = s.heap := by
  have e : step s (.view i) = s.addSl (stringToSlice (s.str i)) := by
    unfold step
    rw [if_neg (by rw [hd]; simp)]
  have e' : (s.addSl (stringToSlice (s.str i))).sl s.sls.length = stringToSlice (s.str i) := by
    unfold St.sl St.addSl
    simp [List.getD_eq_getElem?_getD]
  rw [e, e']
  exact ⟨rfl, rfl, rfl⟩

/-- **C262, the claim**: a string never changes its text, whatever the program does, and the program is not ended. -/
def C262_claim : Prop := ∀ (lits : List (List UInt8)) (ops more : List Op),
  (run (start lits) (ops ++ more)).dead = false ∧
    ∀ i, i < (run (start lits) ops).strs.length → (run (start lits) (ops ++ more)).textOf i = (run (start lits) ops).textOf i

/-- The letters of "ab" and "cd". -/
def ab : List UInt8 := [97, 98]
def cd : List UInt8 := [99, 100]

/-- It is false: `s := "ab" + "cd"; b := fast.StringToSlice(s); b[0] = 'X'` makes `s` "Xbcd". -/
theorem C262_claim_false : ¬ C262_claim := by
  intro h
  have := (h [ab, cd] [.join 0 1] [.view 2, .put 0 0 88]).2 2 (by decide)
  revert this
  decide

/-- Nor is it enough not to write: `append(b[:2], 'X')` writes too, and `s` is "abXd". With a literal the same ends the program. -/
theorem C262_append_false : (run (start [ab, cd]) [.join 0 1, .view 2, .slice 0 0 2, .append 1 [88] 0]).textOf 2 = [97, 98, 88, 100] ∧
    (run (start [ab]) [.view 0, .slice 0 0 1, .append 1 [88] 0]).dead = true := by decide

/-- **C262, the part that holds**: programs that never write to a slice from `StringToSlice` nor to a part of it, and append nothing to such a part (`Careful`). They may
append to the slice itself, copy and cut it, and write to everything else. -/
theorem C262_careful_partial {lits : List (List UInt8)} {ops more : List Op} (hc : Careful [] (ops ++ more)) :
    (run (start lits) (ops ++ more)).dead = false ∧
    ∀ i, i < (run (start lits) ops).strs.length → (run (start lits) (ops ++ more)).textOf i = (run (start lits) ops).textOf i := by
  obtain ⟨o, I, hc'⟩ := careful_split (inv_start lits) hc
  have e : run (start lits) (ops ++ more) = run (run (start lits) ops) more := by unfold run; rw [List.foldl_append]
  obtain ⟨d, K⟩ := careful_run I hc'
  rw [e]
  exact ⟨d, K.2⟩

/-- **C262, what a write does**: after `b := fast.StringToSlice(s); b[k] = v` the string `s` has `v` at place `k`, and so has a string `u := s[i:j]` cut from it before. -/
theorem C262_write {s : St} (hd : s.dead = false) {n k i j : Nat} {v : UInt8} (hl : s.lits ≤ (s.str n).arr) (hk : k < (s.textOf n).length) (hij : i ≤ j)
    (hj : j ≤ (s.textOf n).length) :
    (run s [.cut n i j, .view n, .put s.sls.length k v]).textOf n = (s.textOf n).set k v ∧
    (run s [.cut n i j, .view n, .put s.sls.length k v]).textOf s.strs.length = (((s.textOf n).set k v).drop i).take (j - i) := by
  have hn : n < s.strs.length := by
    apply Decidable.byContradiction
    intro hn
    have : s.str n = noStr := by
      unfold St.str
      rw [List.getD_eq_getElem?_getD, List.getElem?_eq_none (by omega)]
      rfl
    unfold St.textOf at hk
    rw [this] at hk
    simp [Str.bytes, noStr] at hk
  have len : (s.textOf n).length ≤ (s.str n).len := by
    simp only [St.textOf, Str.bytes, List.length_take, List.length_drop]
    omega
  generalize ht : s.str n = t at *
  generalize hu : (⟨t.arr, t.off + i, j - i⟩ : Str) = u
  have e1 : step s (.cut n i j) = s.addStr u := by
    unfold step
    rw [if_neg (by rw [hd]; simp)]
    show s.addStr (if i ≤ j ∧ j ≤ (s.str n).len then ⟨(s.str n).arr, (s.str n).off + i, j - i⟩ else noStr) = _
    rw [ht, if_pos ⟨hij, by omega⟩, hu]
  have t1 : (s.addStr u).str n = t := by
    rw [← ht]
    unfold St.str St.addStr
    rw [List.getD_eq_getElem?_getD, List.getD_eq_getElem?_getD, List.getElem?_append_left hn]
  have e2 : step (s.addStr u) (.view n) = (s.addStr u).addSl (stringToSlice t) := by
    unfold step
    rw [if_neg (by show ¬ s.dead = true; rw [hd]; simp)]
    show (s.addStr u).addSl (stringToSlice ((s.addStr u).str n)) = _
    rw [t1]
  have b1 : ((s.addStr u).addSl (stringToSlice t)).sl s.sls.length = stringToSlice t := by
    unfold St.sl St.addSl St.addStr
    simp [List.getD_eq_getElem?_getD]
  have e3 : step ((s.addStr u).addSl (stringToSlice t)) (.put s.sls.length k v) =
      { (s.addStr u).addSl (stringToSlice t) with heap := s.heap.write t.arr (t.off + k) [v] } := by
    unfold step
    rw [if_neg (by show ¬ s.dead = true; rw [hd]; simp)]
    simp only [b1]
    rw [if_neg (by show ¬ t.len ≤ k; omega), if_neg (by show ¬ t.arr < s.lits; omega)]
    rfl
  have er : run s [.cut n i j, .view n, .put s.sls.length k v] = { (s.addStr u).addSl (stringToSlice t) with heap := s.heap.write t.arr (t.off + k) [v] } := by
    show step (step (step s (.cut n i j)) (.view n)) (.put s.sls.length k v) = _
    rw [e1, e2, e3]
  have tx : s.textOf n = ((s.heap.get t.arr).drop t.off).take t.len := by unfold St.textOf Str.bytes; rw [ht]
  have hk' : k < (t.bytes s.heap).length := by rw [← ht]; exact hk
  have whole : (((s.heap.get t.arr).set (t.off + k) v).drop t.off).take t.len = (s.textOf n).set k v := by
    rw [tx, List.drop_set, if_neg (by omega), Nat.add_sub_cancel_left, List.take_set]
  rw [er]
  constructor
  · have : St.str { (s.addStr u).addSl (stringToSlice t) with heap := s.heap.write t.arr (t.off + k) [v] } n = t := t1
    unfold St.textOf
    rw [this]
    show t.bytes (s.heap.write t.arr (t.off + k) [v]) = _
    rw [set_text hk' rfl]
    exact whole
  · have : St.str { (s.addStr u).addSl (stringToSlice t) with heap := s.heap.write t.arr (t.off + k) [v] } s.strs.length = u := by
      unfold St.str St.addSl St.addStr
      simp [List.getD_eq_getElem?_getD]
    unfold St.textOf at *
    rw [this]
    show u.bytes (s.heap.write t.arr (t.off + k) [v]) = _
    rw [set_text hk' (by rw [← hu])]
    rw [← whole, ← hu]
    simp only [← List.drop_drop, List.drop_take, List.take_take]
    rw [Nat.min_eq_left (by omega)]

/-- **C262, literals**: a write to the slice of a literal ends the program. -/
theorem C262_literal {s : St} (hd : s.dead = false) {n k : Nat} {v : UInt8} (hl : (s.str n).arr < s.lits) (hk : k < (s.str n).len) :
    (run s [.view n, .put s.sls.length k v]).dead = true := by
  have e2 : step s (.view n) = s.addSl (stringToSlice (s.str n)) := by
    unfold step
    rw [if_neg (by rw [hd]; simp)]
  have b1 : (s.addSl (stringToSlice (s.str n))).sl s.sls.length = stringToSlice (s.str n) := by
    unfold St.sl St.addSl
    simp [List.getD_eq_getElem?_getD]
  show (step (step s (.view n)) (.put s.sls.length k v)).dead = true
  rw [e2]
  unfold step
  rw [if_neg (by show ¬ s.dead = true; rw [hd]; simp)]
  simp only [b1]
  rw [if_neg (by show ¬ (s.str n).len ≤ k; omega), if_pos (by exact hl)]

/-- A careful program: it appends to the slice of a string, writes to the result and to a copy; the string "abcd" stays. -/
example : Careful [] [.join 0 1, .view 2, .append 0 [33] 3, .put 1 0 88, .copy 2, .put 2 1 89, .slice 0 1 3, .text 3] := by
  simp [Careful]
example : let s := run (start [ab, cd]) [.join 0 1, .view 2, .append 0 [33] 3, .put 1 0 88, .copy 2, .put 2 1 89, .slice 0 1 3, .text 3]
    (s.textOf 2, bytes s.heap (s.sl 1), bytes s.heap (s.sl 2), s.textOf 3) = ([97, 98, 99, 100], [88, 98, 99, 100, 33], [97, 89, 99, 100], [98, 99]) := by decide

/-- A string made at run time may be written to, a literal may not. -/
example : let s := run (start [ab, cd]) [.join 0 1]
    s.dead = false ∧ s.lits ≤ (s.str 2).arr ∧ 1 < (s.textOf 2).length ∧ (s.str 0).arr < s.lits ∧ 1 < (s.str 0).len := by decide
/-- A part cut from the string before shows the write. -/
example : let s := run (start [ab, cd]) [.join 0 1, .cut 2 1 3, .view 2, .put 0 1 88]
    (s.textOf 2, s.textOf 3) = ([97, 88, 99, 100], [88, 99]) := by decide

end Gofer.Props.Fast
