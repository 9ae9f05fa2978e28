import Verif.Spec.Assoc
import Verif.Proof.Linked

namespace Gofer.Spec.Assoc
variable {K V : Type} [DecidableEq K]

theorem find_none {k : K} {es : List (K × V)} : find k es = none ↔ k ∉ es.map Prod.fst := by
  simp only [find, Option.map_eq_none_iff, List.find?_eq_none, decide_eq_true_eq, List.mem_map, not_exists, not_and]

theorem find_split {k : K} {v : V} {exs eys : List (K × V)} (hn : ((exs ++ (k, v) :: eys).map Prod.fst).Nodup) :
    find k (exs ++ (k, v) :: eys) = some v ∧ without k (exs ++ (k, v) :: eys) = exs ++ eys := by
  obtain ⟨h1, h2⟩ := Lnk.keys_split hn
  rw [List.map_append, List.mem_append, not_or] at h2
  constructor
  · unfold find
    have : exs.find? (fun p => decide (p.1 = k)) = none := by
      have := h2.1
      simp only [List.find?_eq_none, decide_eq_true_eq]
      intro x hx hk; exact this (List.mem_map.2 ⟨x, hx, hk⟩)
    rw [List.find?_append, this]; simp
  · unfold without
    have e : ∀ zs : List (K × V), k ∉ zs.map Prod.fst → zs.filter (fun p => decide (p.1 ≠ k)) = zs := by
      intro zs hz
      apply List.filter_eq_self.2
      intro x hx
      simp only [ne_eq, decide_not, Bool.not_eq_eq_eq_not, Bool.not_true, decide_eq_false_iff_not]
      intro hk; exact hz (List.mem_map.2 ⟨x, hx, hk⟩)
    rw [List.filter_append, List.filter_cons, e exs h2.1, e eys h2.2]
    simp

theorem without_of_not_mem {k : K} {es : List (K × V)} (h : k ∉ es.map Prod.fst) : without k es = es := by
  apply List.filter_eq_self.2
  intro x hx
  simp only [ne_eq, decide_not, Bool.not_eq_eq_eq_not, Bool.not_true, decide_eq_false_iff_not]
  intro hk; exact h (List.mem_map.2 ⟨x, hx, hk⟩)

end Gofer.Spec.Assoc
