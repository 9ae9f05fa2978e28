import Verif.Proof.PostScheme
/-! # The scheme of a URL (C149) -/
namespace Gofer.Props.PostScheme
open Gofer.Post
open Gofer.Spec.Scheme

/-- **C149, which scheme a URL has**: exactly if it begins with a scheme and a colon; what follows the colon is read as the rest. -/
theorem C149_scheme (s sc r : Str) : (getSchemeFrom s [] s = some (sc, r) ∧ sc ≠ []) ↔ Scheme sc ∧ s = sc ++ 58 :: r := by
  have tail : ∀ (a : UInt8) (l : Str), isAlpha a = true → s = a :: l →
      ((getSchemeFrom s [a] l = some (sc, r) ∧ sc ≠ []) ↔ Scheme sc ∧ s = sc ++ 58 :: r) := by
    intro a l ha hs
    rw [scheme_from_iff _ _ _ _ _ (by simp)]
    constructor
    · rintro ⟨m, h1, h2, h3⟩
      refine ⟨⟨a, m, by simpa using h1, (alpha_iff a).mp ha, ?_⟩, by simp [hs, h1, h2]⟩
      intro b hb
      exact (h3 b hb).imp (alpha_iff b).mp (more_iff b).mp
    · rintro ⟨⟨a', t, h1, _, h3⟩, h4⟩
      rw [h1, hs, List.cons_append, List.cons.injEq] at h4
      obtain ⟨rfl, h4⟩ := h4
      exact ⟨t, by simpa using h1, h4, fun b hb => (h3 b hb).imp (alpha_iff b).mpr (more_iff b).mpr⟩
  have none : ∀ (b : UInt8) (l : Str), isAlpha b ≠ true → s = b :: l → ¬ (Scheme sc ∧ s = sc ++ 58 :: r) := by
    rintro b l hb hs ⟨⟨a, t, h1, h2, _⟩, h4⟩
    rw [h1, hs, List.cons_append, List.cons.injEq] at h4
    rw [h4.1] at hb
    exact hb ((alpha_iff a).mpr h2)
  cases hs : s with
  | nil =>
    constructor
    · rintro ⟨h1, h2⟩
      simp only [getSchemeFrom, Option.some.injEq, Prod.mk.injEq] at h1
      exact absurd h1.1.symm h2
    · rintro ⟨⟨a, t, h1, _⟩, h4⟩
      rw [h1] at h4
      cases h4
  | cons b l =>
    rw [← hs]
    by_cases hb : isAlpha b = true
    · have e : getSchemeFrom s [] s = getSchemeFrom s [b] l := by
        conv => lhs; rw [show getSchemeFrom s [] s = getSchemeFrom s [] (b :: l) by rw [← hs]]
        simp only [getSchemeFrom, hb, if_true, List.nil_append]
      rw [e]
      exact tail b l hb hs
    · refine ⟨?_, fun h => absurd h (none b l hb hs)⟩
      rintro ⟨h1, h2⟩
      rw [show getSchemeFrom s [] s = getSchemeFrom s [] (b :: l) by rw [← hs]] at h1
      simp only [getSchemeFrom, if_neg hb, if_true] at h1
      split at h1
      · cases h1; exact absurd rfl h2
      · split at h1
        · cases h1
        · cases h1; exact absurd rfl h2

/-- **C149, which URLs are called over TLS**: those that begin with `https:` in any mixture of upper and lower case, and no others; the certificate goes unchecked for `https:` in
lower case only (`C149_checked_partial`). -/
theorem C149_tls (e : Env) (url : Str) (u : Url) : (parseURL e url = some u ∧ u.scheme = https) ↔
    ∃ sc r, url = sc ++ 58 :: r ∧ sc.map lower = https ∧ u.scheme = https ∧ e.readRest r = some u.rest := by
  constructor
  · rintro ⟨h, hu⟩
    unfold parseURL at h
    cases hg : getSchemeFrom url [] url with
    | none => rw [hg] at h; cases h
    | some p =>
      obtain ⟨sc, r⟩ := p
      rw [hg] at h
      dsimp only at h
      cases hr : e.readRest r with
      | none => rw [hr] at h; cases h
      | some r' =>
        rw [hr] at h
        cases h
        have hne : sc ≠ [] := by
          rintro rfl
          cases hu
        exact ⟨sc, r, ((C149_scheme url sc r).mp ⟨hg, hne⟩).2, hu, hu, hr⟩
  · rintro ⟨sc, r, h1, h2, h3, h4⟩
    have hl : ∀ b ∈ sc, Letter b := by
      intro b hb
      have hm : lower b ∈ https := h2 ▸ List.mem_map_of_mem hb
      have ha : ∀ x ∈ https, isAlpha x = true := by decide
      exact (alpha_iff b).mp (alpha_of_lower b (ha _ hm))
    have hs : Scheme sc := by
      cases sc with
      | nil => cases h2
      | cons a t => exact ⟨a, t, rfl, hl a (List.mem_cons_self ..), fun b hb => Or.inl (hl b (List.mem_cons_of_mem _ hb))⟩
    obtain ⟨hg, _⟩ := (C149_scheme url sc r).mpr ⟨hs, h1⟩
    refine ⟨?_, h3⟩
    unfold parseURL
    rw [hg]
    dsimp only
    rw [h4]
    dsimp only
    rw [h2, ← h3]

/-- `svn+ssh:x` has the scheme `svn+ssh`; `1a:x` and `/a:b` have none. -/
example : getSchemeFrom [115, 118, 110, 43, 115, 115, 104, 58, 120] [] [115, 118, 110, 43, 115, 115, 104, 58, 120] = some ([115, 118, 110, 43, 115, 115, 104], [120]) ∧
    getSchemeFrom [49, 97, 58, 120] [] [49, 97, 58, 120] = some ([], [49, 97, 58, 120]) ∧
    getSchemeFrom [47, 97, 58, 98] [] [47, 97, 58, 98] = some ([], [47, 97, 58, 98]) := by decide +kernel

end Gofer.Props.PostScheme
