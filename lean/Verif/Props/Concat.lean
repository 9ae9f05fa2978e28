import Verif.Proof.Concat
/-! # Strings put together (C267) -/
namespace Gofer.Props.Concat
open Gofer.Concat

/-- **C267, what comes out**: the strings one after the other: part `i` stands behind the bytes of those before it, and nothing else is there. -/
theorem C267_parts (xs ys : List Str) (s : Str) :
    ((concat (xs ++ s :: ys)).drop (concat xs).length).take s.length = s ∧
      (concat (xs ++ s :: ys)).length = ((xs ++ s :: ys).map List.length).sum ∧ concat [] = [] := by
  refine ⟨?_, ?_, rfl⟩
  · simp [concat_flatten]
  · rw [concat_flatten, List.length_flatten]

/-- **C267, the claim**: different parts give different strings, as is needed when `Concat` makes keys. -/
def C267_claim : Prop := ∀ xs ys : List Str, concat xs = concat ys → xs = ys

/-- It is false, also for parts that are not empty: `Concat("ab", "c")` and `Concat("a", "bc")`. -/
theorem C267_claim_false : ¬ C267_claim ∧ ∃ xs ys : List Str, xs.length = ys.length ∧ [] ∉ xs ∧ [] ∉ ys ∧ concat xs = concat ys ∧ xs ≠ ys := by
  refine ⟨fun h => absurd (h [[97, 98], [99]] [[97], [98, 99]] rfl) (by decide), ?_⟩
  exact ⟨[[97, 98], [99]], [[97], [98, 99]], rfl, by decide, by decide, rfl, by decide⟩

/-- **C267, parts of known lengths**: if the parts have the same lengths, one by one, then the claim holds. -/
theorem C267_lengths_partial (xs ys : List Str) (hl : xs.map List.length = ys.map List.length) (h : concat xs = concat ys) : xs = ys := by
  induction xs generalizing ys with
  | nil =>
    cases ys with
    | nil => rfl
    | cons y t => cases hl
  | cons x s ih =>
    cases ys with
    | nil => cases hl
    | cons y t =>
      obtain ⟨h1, h2⟩ := List.cons.inj hl
      rw [concat_cons, concat_cons] at h
      obtain ⟨h3, h4⟩ := List.append_inj h h1
      rw [h3, ih t h2 h4]

/-- **C267, parts with an end mark**: if every part is followed by a byte that occurs in no part, then the claim holds. -/
theorem C267_marked_partial (c : UInt8) (xs ys : List Str) (hx : ∀ s ∈ xs, c ∉ s) (hy : ∀ s ∈ ys, c ∉ s)
    (h : concat (xs.map fun s => s ++ [c]) = concat (ys.map fun s => s ++ [c])) : xs = ys := by
  induction xs generalizing ys with
  | nil =>
    cases ys with
    | nil => rfl
    | cons y t =>
      rw [List.map_nil, List.map_cons, concat_cons, show concat [] = [] from rfl] at h
      have := congrArg List.length h
      simp at this
  | cons x s ih =>
    cases ys with
    | nil =>
      rw [List.map_nil, List.map_cons, concat_cons, show concat [] = [] from rfl] at h
      have := congrArg List.length h
      simp at this
    | cons y t =>
      rw [List.map_cons, List.map_cons, concat_cons, concat_cons, List.append_assoc, List.append_assoc, List.singleton_append, List.singleton_append] at h
      obtain ⟨h1, h2⟩ := split_at c x y _ _ (hx x (List.mem_cons_self ..)) (hy y (List.mem_cons_self ..)) h
      rw [h1, ih t (fun a ha => hx a (List.mem_cons_of_mem _ ha)) (fun a ha => hy a (List.mem_cons_of_mem _ ha)) h2]

/-- `Concat("ab", "", "c")`. -/
example : concat [[97, 98], [], [99]] = [97, 98, 99] := rfl
example : [[97, 98], [99]].map List.length = [[100, 101], [102]].map (List.length (α := Nat)) ∧ concat [[97, 98], [99]] ≠ concat [[100, 101], [102]] := ⟨rfl, by decide⟩
/-- With `/` behind each part the two lists of the counterexample can be told apart. -/
example : (∀ s ∈ [[97, 98], [99]], (47 : UInt8) ∉ s) ∧ concat [[97, 98, 47], [99, 47]] ≠ concat [[97, 47], [98, 99, 47]] := by decide

end Gofer.Props.Concat
