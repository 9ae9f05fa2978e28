import Verif.Proof.RegexpSize
/-!
# `MatchString` as a whole
-/
namespace Gofer.Regexp
open Gofer.Spec.Json (Bytes Scalar utf8)
open Gofer.Spec.Regexp

theorem runesGo_total : ∀ (f : Nat) (s : Bytes), s.length ≤ f → Runes s (runesGo f s)
  | 0, s, h => by
    have : s = [] := List.length_eq_zero_iff.1 (by omega)
    subst this
    exact .nil
  | f + 1, [], _ => .nil
  | f + 1, b :: s, h => by
    have hs : s.length ≤ f := by simpa using h
    by_cases hb : b < 128
    · obtain ⟨h1, h2⟩ := Json.utf8_ascii b hb
      have hd := decode_scalar b.toNat h1 s
      rw [h2] at hd
      have := Runes.good b.toNat s (runesGo f s) h1 (runesGo_total f s hs)
      rw [h2] at this
      simp only [runesGo]
      rw [show b :: s = [b] ++ s from rfl, hd]
      simpa using this
    · rcases Json.decodeRune_cases b s hb with hd | ⟨c, r, h1, h2, h3, h4⟩
      · simp only [runesGo, hd, List.drop_succ_cons, List.drop_zero]
        refine .bad b s _ (fun c hc hpre => ?_) (runesGo_total f s hs)
        obtain ⟨r, hr⟩ := hpre
        have := decode_scalar c hc r
        rw [hr, hd] at this
        simp only [Prod.mk.injEq] at this
        obtain ⟨rfl, h5⟩ := this
        exact absurd h5 (by decide +kernel)
      · simp only [runesGo, h4]
        have hp := utf8_pos c
        have hl : r.length ≤ f := by
          have := congrArg List.length h3
          simp only [List.length_cons, List.length_append] at this h
          omega
        rw [h3, List.drop_left']
        · exact .good c r _ h1 (runesGo_total f r hl)
        · rfl

theorem runes_total (s : Bytes) : Runes s (runes s) := runesGo_total _ s (Nat.le_refl _)

theorem runes_iff (s : Bytes) (w : List Nat) : Runes s w ↔ w = runes s :=
  ⟨fun h => (runes_ok h).symm, fun h => h ▸ runes_total s⟩

theorem matchString_ok (fold : Nat → Nat → Bool) (pat s : Bytes) (e : Re) (w : List Nat) (hp : Pattern pat e) (hr : Runes s w) : ∃ b, matchString fold pat s = some b ∧ (b = true ↔ Found fold w e) := by
  obtain ⟨t, f, rfl, hsc, ha⟩ := hp
  obtain ⟨x, hx, hs⟩ := parse_ok ha
  obtain ⟨h0, hc, hst, _, hw⟩ := program_ok (fold := fold) (w := w) (simplify x) (simplify_noRep x)
  have he := (execute_ok fold _ w hc h0 _ hst s.length).1
  refine ⟨_, by simp only [matchString, matchSteps, pattern_ok t hsc, hx, Option.map_some]; rfl, ?_⟩
  rw [runes_ok hr, he]
  unfold Found
  constructor
  · rintro ⟨k, hk, h⟩
    obtain ⟨j, hj⟩ := (hw k).1 h
    exact ⟨k, j, hk, (hs.fits fold w k j hk).1 ((simplify_ok x hs.ordered k j).1 hj)⟩
  · rintro ⟨i, j, hi, h⟩
    exact ⟨i, hi, (hw i).2 ⟨j, (simplify_ok x hs.ordered i j).2 ((hs.fits fold w i j hi).2 h)⟩⟩

theorem matchSteps_le (fold : Nat → Nat → Bool) (pat s : Bytes) (b : Bool) (k : Nat) (h : matchSteps fold pat s = some (b, k)) : k ≤ 50000 * (pat.length + 1) * (s.length + 1) := by
  unfold matchSteps at h
  split at h
  · cases h; omega
  · rename_i t et
    split at h
    · cases h; omega
    · cases h
    · rename_i x hx
      obtain ⟨h1, h2, h3⟩ := parse_kept t x hx
      obtain ⟨h0, hc, hst, hl, _⟩ := program_ok (fold := fold) (w := runes s) (simplify x) (simplify_noRep x)
      have he := (execute_ok fold _ (runes s) hc h0 _ hst s.length).2
      simp only [Option.some.injEq] at h
      rw [h] at he
      have h4 := compile_length (simplify x) [.fail]
      have h5 := insts_simplify x h2
      have h6 : wt x * (2 * nodes x) ≤ 1000 * (2 * nodes x) := Nat.mul_le_mul_right _ h3
      have h7 := patternGo_length _ _ _ et
      have h8 : (runes s).length ≤ s.length := runesGo_length _ _
      simp only [List.length_cons, List.length_nil] at h4
      have h9 : 6 * (program (simplify x)).1.length ≤ 50000 * (pat.length + 1) := by omega
      exact Nat.le_trans he (Nat.mul_le_mul h9 (by omega))

/-! ## Whole texts -/

theorem pattern_ascii (l : List Nat) (h : ∀ c ∈ l, c < 128) : (∀ c ∈ l, Scalar c) ∧ l.flatMap utf8 = l.map UInt8.ofNat := by
  refine ⟨fun c hc => .inl (by have := h c hc; omega), ?_⟩
  induction l with
  | nil => rfl
  | cons c l ih =>
    have hc := h c List.mem_cons_self
    rw [List.flatMap_cons, List.map_cons, ih fun x hx => h x (List.mem_cons_of_mem _ hx)]
    simp [utf8, hc]

/-- `^(?:` … `)$`. -/
theorem whole_pattern (pat : Bytes) (e : Re) (h : Pattern pat e) :
    Pattern ([94, 40, 63, 58] ++ pat ++ [41, 36]) (.cat (.cat (.cat .eps (.at .textBegin)) e) (.at .textEnd)) := by
  obtain ⟨t, f, rfl, hsc, ha⟩ := h
  obtain ⟨a1, a2⟩ := pattern_ascii [94, 40, 63, 58] (by decide)
  obtain ⟨b1, b2⟩ := pattern_ascii [41, 36] (by decide)
  refine ⟨[94, 40, 63, 58] ++ t ++ [41, 36], ⟨false, false, false, false⟩, ?_, ?_, ?_⟩
  · rw [List.flatMap_append, List.flatMap_append, a2, b2]
    rfl
  · intro c hc
    rcases List.mem_append.1 hc with hc | hc
    · rcases List.mem_append.1 hc with hc | hc
      · exact a1 c hc
      · exact hsc c hc
    · exact b1 c hc
  · refine .one _ _ _ _ ?_
    have h1 := Cat.atom _ _ _ _ _ _ (.nil ⟨false, false, false, false⟩) (.caret _)
    have h2 := Cat.atom _ _ _ _ _ _ h1 (.parenWith _ _ _ t [] e (.on _ [] (by simp [Letters])) ha)
    have h3 := Cat.atom _ _ _ _ _ _ h2 (.dollar _)
    simpa using h3

theorem whole_fits (fold : Nat → Nat → Bool) (w : List Nat) (e : Re) : Found fold w (.cat (.cat (.cat .eps (.at .textBegin)) e) (.at .textEnd)) ↔ Fits fold w e 0 w.length := by
  simp only [Found, Fits, Place.Holds]
  constructor
  · rintro ⟨i, j, _, k, ⟨l, ⟨m, rfl, rfl, rfl⟩, h⟩, rfl, rfl⟩
    exact h
  · exact fun h => ⟨0, w.length, by omega, w.length, ⟨0, ⟨0, rfl, rfl, rfl⟩, h⟩, rfl, rfl⟩

/-! ## Plain text -/

theorem quote_cat (f : Mode) (Q : Nat → List Nat) (hQ : ∀ c, Atom f (Q c) (.chr f.i c)) : ∀ (q t : List Nat) (e : Re), Cat f t e f → Cat f (t ++ q.flatMap Q) (q.foldl (fun e c => .cat e (.chr f.i c)) e) f
  | [], t, e, h => by simpa using h
  | c :: q, t, e, h => by
    have := quote_cat f Q hQ q (t ++ Q c) _ (.atom _ _ _ _ _ _ h (hQ c))
    simpa using this

theorem quote_fits (fold : Nat → Nat → Bool) (w : List Nat) : ∀ (q : List Nat) (e : Re) (i j : Nat), Fits fold w (q.foldl (fun e c => .cat e (.chr false c)) e) i j ↔ ∃ k, Fits fold w e i k ∧ j = k + q.length ∧ q <+: w.drop k
  | [], e, i, j => by
    simp only [List.foldl_nil, List.length_nil, Nat.add_zero, List.nil_prefix, and_true]
    exact ⟨fun h => ⟨j, h, rfl⟩, fun ⟨k, h, e⟩ => e ▸ h⟩
  | c :: q, e, i, j => by
    rw [List.foldl_cons, quote_fits fold w q]
    have step : ∀ k, (∃ r, w[k]? = some r ∧ Like fold false c r) ∧ q <+: w.drop (k + 1) ↔ (c :: q) <+: w.drop k := by
      intro k
      by_cases hk : k < w.length
      · rw [List.drop_eq_getElem_cons hk, List.cons_prefix_cons, List.getElem?_eq_getElem hk]
        simp [Like]
      · rw [List.drop_eq_nil_of_le (by omega : w.length ≤ k), List.getElem?_eq_none (by omega)]
        simp
    simp only [Fits]
    constructor
    · rintro ⟨k, ⟨m, h, rfl, h2⟩, rfl, h3⟩
      exact ⟨m, h, by simp only [List.length_cons]; omega, (step m).1 ⟨h2, h3⟩⟩
    · rintro ⟨m, h, rfl, h3⟩
      obtain ⟨h4, h5⟩ := (step m).2 h3
      exact ⟨m + 1, ⟨m, h, rfl, h4⟩, by simp only [List.length_cons]; omega, h5⟩

theorem quote_found (fold : Nat → Nat → Bool) (w q : List Nat) : Found fold w (q.foldl (fun e c => .cat e (.chr false c)) .eps) ↔ q <:+: w := by
  unfold Found
  simp only [quote_fits, Fits]
  constructor
  · rintro ⟨i, j, _, k, rfl, _, h⟩
    exact h.isInfix.trans (List.drop_suffix _ _).isInfix
  · rintro ⟨a, b, rfl⟩
    refine ⟨a.length, a.length + q.length, by simp, a.length, rfl, rfl, ?_⟩
    rw [List.append_assoc, List.drop_left']
    · exact List.prefix_append _ _
    · rfl

/-! ## Mistakes -/

theorem bad_false (fold : Nat → Nat → Bool) (t : List Nat) (h : ∀ c ∈ t, Scalar c) (hp : parse t = .error .bad) (s : Bytes) : matchString fold (t.flatMap utf8) s = some false := by
  simp only [matchString, matchSteps, pattern_ok t h, hp, Option.map_some]

theorem steps_bad {x y : P × List Nat} (h : Steps x y) (hy : step y.1 y.2 = .error .bad) (hne : y.2 ≠ []) : ∀ f, x.2.length ≤ f → parseLoop f x.1 x.2 = .error .bad := by
  induction h using Relation.ReflTransGen.head_induction_on with
  | refl =>
    intro f hf
    cases e : y.2 with
    | nil => exact absurd e hne
    | cons c t =>
      cases f with
      | zero => rw [e] at hf; simp at hf
      | succ f =>
        rw [e] at hy
        simp only [parseLoop, hy]
        rfl
  | head hs hrest ih =>
    rename_i x z
    intro f hf
    obtain ⟨h1, h2⟩ := hs
    cases f with
    | zero => omega
    | succ f =>
      cases e : x.2 with
      | nil => rw [e] at h2; simp at h2
      | cons c t =>
        rw [e] at h1
        simp only [parseLoop, h1]
        exact ih f (by omega)

/-- A closing parenthesis too many. -/
theorem extra_paren {t : List Nat} {e : Re} {f : Mode} (h : Alt ⟨false, false, false, false⟩ t e f) (r : List Nat) : parse (t ++ 41 :: r) = .error .bad := by
  obtain ⟨ts, as, n, ag, h1, _⟩ := (alt_ok h).2 [] 0 false (41 :: r) (.inl rfl) (by simp)
  have hb : step ⟨alts ts as [], flagsOf f, n, ag⟩ (41 :: r) = .error .bad := by
    simp only [step, rightParen, close_ok ts as (.inl rfl)]
    simp only [show ¬ 41 = 40 by omega, show ¬ 41 = 124 by omega, if_false, if_true]
    rfl
  have := steps_bad h1 hb (by simp) (t ++ 41 :: r).length (Nat.le_refl _)
  have e : (⟨[], flagsOf ⟨false, false, false, false⟩, 0, false⟩ : P) = .init := rfl
  rw [e] at this
  simp only [parse, this]
  rfl

/-- A closing parenthesis missing. -/
theorem missing_paren {t : List Nat} {e : Re} {f : Mode} (h : Alt ⟨false, false, false, false⟩ t e f) : parse (40 :: t) = .error .bad := by
  have hb : Base [.paren (some 1) (flagsOf ⟨false, false, false, false⟩)] := .inr ⟨_, _, _, rfl⟩
  obtain ⟨ts, as, n, ag, h1, _⟩ := (alt_ok h).2 [.paren (some 1) (flagsOf ⟨false, false, false, false⟩)] 1 false [] hb (by simp)
  rw [List.append_nil] at h1
  have hs : Step (.init, 40 :: t) (⟨[.paren (some 1) (flagsOf ⟨false, false, false, false⟩)], flagsOf ⟨false, false, false, false⟩, 1, false⟩, t) := by
    refine ⟨?_, by simp⟩
    have := (alt_ok h).1
    simp only [step, if_true, this, if_false]
    rfl
  have := steps_loop (.head hs h1) rfl (40 :: t).length (Nat.le_refl _)
  simp only at this
  simp only [parse, this, Except.bind, close_ok ts as hb]

theorem patternGo_some : ∀ (f : Nat) (s : Bytes) (t : List Nat), s.length ≤ f → patternGo f s = some t → (∀ c ∈ t, Scalar c) ∧ s = t.flatMap utf8
  | 0, [], t, _, h => by cases h; simp
  | 0, b :: s, t, hf, h => by simp at hf
  | f + 1, [], t, _, h => by cases h; simp
  | f + 1, b :: s, t, hf, h => by
    simp only [patternGo] at h
    split at h
    · cases h
    · rename_i hne
      obtain ⟨c, r, hc, hs⟩ : ∃ c r, Scalar c ∧ b :: s = utf8 c ++ r := by
        by_cases hb : b < 128
        · have hb' : b.toNat < 128 := UInt8.lt_iff_toNat_lt.1 hb
          exact ⟨b.toNat, s, .inl (by omega), by simp [utf8, hb']⟩
        · rcases Json.decodeRune_cases b s hb with hd | ⟨c, r, h1, _, h3, _⟩
          · rw [hd] at hne
            exact absurd ⟨rfl, rfl⟩ hne
          · exact ⟨c, r, h1, h3⟩
      rw [hs, decode_scalar c hc r, List.drop_left] at h
      have hl := congrArg List.length hs
      have hp := utf8_pos c
      simp only [List.length_cons, List.length_append] at hl hf
      cases e : patternGo f r with
      | none => rw [e] at h; cases h
      | some u =>
        rw [e] at h
        cases h
        obtain ⟨h1, h2⟩ := patternGo_some f r u (by omega) e
        refine ⟨?_, ?_⟩
        · intro x hx
          rcases List.mem_cons.1 hx with rfl | hx
          · exact hc
          · exact h1 x hx
        · rw [hs, List.flatMap_cons, ← h2]

theorem no_utf8_false (fold : Nat → Nat → Bool) (pat s : Bytes) (h : ¬ ∃ t : List Nat, (∀ c ∈ t, Scalar c) ∧ pat = t.flatMap utf8) : matchString fold pat s = some false := by
  cases e : pattern pat with
  | none => simp only [matchString, matchSteps, e, Option.map_some]
  | some t => exact absurd ⟨t, patternGo_some _ _ _ (Nat.le_refl _) e⟩ h

end Gofer.Regexp
