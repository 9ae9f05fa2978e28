import Verif.Model.Concat
/-! # Lemmas for `Concat` -/
namespace Gofer.Concat

theorem concat_from (ss : List Str) (b : Str) : ss.foldl writeString b = b ++ ss.flatten := by
  induction ss generalizing b with
  | nil => simp
  | cons s t ih => rw [List.foldl_cons, ih]; simp [writeString]

theorem concat_flatten (ss : List Str) : concat ss = ss.flatten := concat_from ss []

theorem concat_cons (s : Str) (t : List Str) : concat (s :: t) = s ++ concat t := by
  rw [concat_flatten, concat_flatten, List.flatten_cons]

/-- Two beginnings without `c`, each followed by `c`. -/
theorem split_at (c : UInt8) (x y r r' : Str) (hx : c ∉ x) (hy : c ∉ y) (h : x ++ c :: r = y ++ c :: r') : x = y ∧ r = r' := by
  induction x generalizing y with
  | nil =>
    cases y with
    | nil => exact ⟨rfl, (List.cons.inj h).2⟩
    | cons b y => exact absurd (List.mem_cons.mpr (Or.inl (List.cons.inj h).1)) hy
  | cons a x ih =>
    cases y with
    | nil => exact absurd (List.mem_cons.mpr (Or.inl (List.cons.inj h).1.symm)) hx
    | cons b y =>
      obtain ⟨h1, h2⟩ := List.cons.inj h
      obtain ⟨h3, h4⟩ := ih y (fun m => hx (List.mem_cons_of_mem _ m)) (fun m => hy (List.mem_cons_of_mem _ m)) h2
      exact ⟨by rw [h1, h3], h4⟩

end Gofer.Concat
