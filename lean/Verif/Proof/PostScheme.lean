import Verif.Model.Post
import Verif.Spec.Scheme
/-! # Lemmas for the scheme of a URL -/
namespace Gofer.Post
open Gofer.Spec.Scheme

theorem alpha_iff (b : UInt8) : isAlpha b = true ↔ Letter b := by
  have h : ∀ n : Fin 256, isAlpha n.val.toUInt8 = true ↔ ∃ c ∈ letters, c.toNat = n.val := by decide +kernel
  have := h ⟨b.toNat, b.toNat_lt⟩
  simpa [Letter] using this

theorem more_iff (b : UInt8) : isSchemeMore b = true ↔ Other b := by
  have h : ∀ n : Fin 256, isSchemeMore n.val.toUInt8 = true ↔ ∃ c ∈ others, c.toNat = n.val := by decide +kernel
  have := h ⟨b.toNat, b.toNat_lt⟩
  simpa [Other] using this

theorem alpha_of_lower (b : UInt8) (h : isAlpha (lower b) = true) : isAlpha b = true := by
  have k : ∀ n : Fin 256, isAlpha (lower n.val.toUInt8) = true → isAlpha n.val.toUInt8 = true := by decide +kernel
  have := k ⟨b.toNat, b.toNat_lt⟩
  simp only [Nat.toUInt8_eq, UInt8.ofNat_toNat] at this
  exact this h

theorem scheme_from_iff (all acc l sc r : Str) (ha : acc ≠ []) : (getSchemeFrom all acc l = some (sc, r) ∧ sc ≠ []) ↔
    ∃ m, sc = acc ++ m ∧ l = m ++ 58 :: r ∧ ∀ b ∈ m, isAlpha b = true ∨ isSchemeMore b = true := by
  induction l generalizing acc with
  | nil =>
    constructor
    · rintro ⟨h1, h2⟩
      simp only [getSchemeFrom, Option.some.injEq, Prod.mk.injEq] at h1
      exact absurd h1.1.symm h2
    · rintro ⟨m, _, h2, _⟩
      cases m <;> cases h2
  | cons b l ih =>
    have go : (isAlpha b = true ∨ isSchemeMore b = true) → ((getSchemeFrom all (acc ++ [b]) l = some (sc, r) ∧ sc ≠ []) ↔
        ∃ m, sc = acc ++ m ∧ b :: l = m ++ 58 :: r ∧ ∀ b ∈ m, isAlpha b = true ∨ isSchemeMore b = true) := by
      intro hb
      rw [ih (acc ++ [b]) (by simp)]
      constructor
      · rintro ⟨m, h1, h2, h3⟩
        refine ⟨b :: m, by simp [h1], by simp [h2], ?_⟩
        intro x hx
        rcases List.mem_cons.mp hx with rfl | hx
        · exact hb
        · exact h3 x hx
      · rintro ⟨m, h1, h2, h3⟩
        cases m with
        | nil =>
          simp only [List.nil_append, List.cons.injEq] at h2
          rw [h2.1] at hb
          exact absurd hb (by decide)
        | cons x m =>
          simp only [List.cons_append, List.cons.injEq] at h2
          obtain ⟨rfl, h2⟩ := h2
          exact ⟨m, by simp [h1], h2, fun y hy => h3 y (List.mem_cons_of_mem _ hy)⟩
    unfold getSchemeFrom
    split
    · rename_i h
      exact go (Or.inl h)
    · rename_i h
      split
      · rename_i h'
        exact go (Or.inr h')
      · rename_i h'
        split
        · rename_i h58
          subst h58
          constructor
          · rintro ⟨h1, _⟩
            simp only [Option.some.injEq, Prod.mk.injEq] at h1
            exact ⟨[], by simp [h1.1], by simp [h1.2], by simp⟩
          · rintro ⟨m, h1, h2, h3⟩
            cases m with
            | nil =>
              simp only [List.append_nil, List.nil_append, List.cons.injEq, true_and] at h1 h2
              subst h1 h2
              exact ⟨rfl, ha⟩
            | cons x m =>
              simp only [List.cons_append, List.cons.injEq] at h2
              have := h3 x (List.mem_cons_self ..)
              rw [← h2.1] at this
              exact absurd this (by decide)
        · rename_i h58
          constructor
          · rintro ⟨h1, h2⟩
            simp only [Option.some.injEq, Prod.mk.injEq] at h1
            exact absurd h1.1.symm h2
          · rintro ⟨m, h1, h2, h3⟩
            cases m with
            | nil =>
              simp only [List.nil_append, List.cons.injEq] at h2
              exact absurd h2.1 h58
            | cons x m =>
              simp only [List.cons_append, List.cons.injEq] at h2
              have := h3 x (List.mem_cons_self ..)
              rw [← h2.1] at this
              rcases this with h4 | h4
              · exact absurd h4 h
              · exact absurd h4 h'

end Gofer.Post
