import Verif.Proof.RegexpMain
/-!
# C233-C236: `util.MatchString`

`matchString fold pat s` is `MatchString(pat, s)`; `none` if the pattern uses something that is not modelled. `fold` is Unicode's simple case folding, used by `(?i)` only: any relation.
-/
namespace Gofer.Props.Regexp
open Gofer.Spec.Json (Bytes Scalar utf8)
open Gofer.Spec.Regexp
open Gofer.Regexp (matchString matchSteps)

def s2b (s : String) : Bytes := s.toUTF8.toList

/-! ## C233 -/

/-- For every pattern of the grammar and every string, bytes that are no UTF-8 included, `MatchString` tells whether the expression fits some part of the text. -/
theorem C233_finds (fold : Nat → Nat → Bool) (pat s : Bytes) (e : Re) (w : List Nat) (hp : Pattern pat e) (hr : Runes s w) :
    ∃ b, matchString fold pat s = some b ∧ (b = true ↔ Found fold w e) := Gofer.Regexp.matchString_ok fold pat s e w hp hr

/-- Every string has its code points, and only one list of them. -/
theorem C233_runes (s : Bytes) : ∃! w, Runes s w := ⟨_, Gofer.Regexp.runes_total s, fun _ h => (Gofer.Regexp.runes_ok h).symm⟩

/-- A pattern means one thing: two readings fit the same parts of every text. -/
theorem C233_one_meaning (fold : Nat → Nat → Bool) (pat s : Bytes) (e d : Re) (w : List Nat) (he : Pattern pat e) (hd : Pattern pat d) (hr : Runes s w) : Found fold w e ↔ Found fold w d := by
  obtain ⟨b, hb, h1⟩ := C233_finds fold pat s e w he hr
  obtain ⟨c, hc, h2⟩ := C233_finds fold pat s d w hd hr
  rw [hb] at hc
  cases hc
  rw [← h1, h2]

/-- Plain letters and digits. -/
theorem plainAtom (f : Mode) (c : Nat) (h : c ∉ [36, 40, 41, 42, 43, 46, 63, 91, 92, 94, 123, 124]) : Atom f [c] (.chr f.i c) := .plain f c h

/-- `[a-c]+\d{2,3}|(?i)x` -/
def samplePattern : Bytes := s2b "[a-c]+\\d{2,3}|(?i)x"

def sampleRe : Re :=
  .alt (.cat (.cat .eps (.rep (.cls false false [.range 97 99]) 1 none)) (.rep (.cls false false [.group false [(48, 57)]]) 2 (some 3))) (.cat .eps (.chr true 120))

theorem sample_reads : Pattern samplePattern sampleRe := by
  refine ⟨[91, 97, 45, 99, 93, 43, 92, 100, 123, 50, 44, 51, 125, 124, 40, 63, 105, 41, 120], ⟨true, false, false, false⟩, by decide +kernel, by intro c hc; exact .inl (by revert c; decide), ?_⟩
  have hi : Items [97, 45, 99] [.range 97 99] := .range [97] [99] [] 97 99 [] (.plain 97 (by decide)) (.plain 99 (by decide)) (by omega) .nil
  have hb : ClassBody [97, 45, 99] [.range 97 99] := by
    have := ClassBody.mk false false _ _ hi (by simp)
    simpa using this
  have h1 := Cat.rep _ _ _ _ _ _ _ _ _ (.nil ⟨false, false, false, false⟩) (.cls _ _ _ hb) (.most _ _ _ .plus) (by decide)
  have h2 := Cat.rep _ _ _ _ _ _ _ _ _ h1 (.group _ _ _ .digit) (.most _ _ _ (.between [50] [51] 2 3 (.digit 2 (by omega) (by omega)) (.digit 3 (by omega) (by omega)) (by omega) (by omega))) (by decide)
  have h3 := Cat.switch _ _ _ _ [105] _ (.nil ⟨false, false, false, false⟩) (.on _ [105] (by simp [Letters]))
  have h4 := Cat.atom _ _ _ _ _ _ h3 (.plain _ 120 (by decide))
  have h5 := Alt.bar _ _ _ _ _ _ _ (.one _ _ _ _ h2) h4
  have e : Mode.set ⟨false, false, false, false⟩ true 105 = ⟨true, false, false, false⟩ := rfl
  simp only [List.foldl_cons, List.foldl_nil, e] at h5
  simpa [sampleRe] using h5

example : matchString (fun c r => c = 120 ∧ r = 88) samplePattern (s2b "??abc12??") = some true := by decide +kernel
example : matchString (fun c r => c = 120 ∧ r = 88) samplePattern (s2b "ab1") = some false := by decide +kernel
example : matchString (fun c r => c = 120 ∧ r = 88) samplePattern (s2b "ab1 X") = some true := by decide +kernel
example : matchString (fun _ _ => false) (s2b "(a|ab)(c|bcd)\\b") (s2b "-abcd.") = some true := by decide +kernel
example : matchString (fun _ _ => false) (s2b "(?m)^b$") (s2b "a\nb\nc") = some true := by decide +kernel
example : matchString (fun _ _ => false) (s2b "^b$") (s2b "a\nb\nc") = some false := by decide +kernel
example : matchString (fun _ _ => false) (s2b "^.$") [0xFF] = some true := by decide +kernel
example : matchString (fun _ _ => false) (s2b "[^\\w\\-]é{2}") (s2b "aéé") = some false := by decide +kernel
example : matchString (fun _ _ => false) (s2b "[^\\w\\-]é{2}") (s2b " éé") = some true := by decide +kernel

/-! ## C234 -/

/-- For every pattern and every string the search takes a number of steps that is at most a constant times the product of the two lengths. -/
theorem C234_steps (fold : Nat → Nat → Bool) (pat s : Bytes) (b : Bool) (k : Nat) (h : matchSteps fold pat s = some (b, k)) : k ≤ 50000 * (pat.length + 1) * (s.length + 1) :=
  Gofer.Regexp.matchSteps_le fold pat s b k h

/-- These are the steps of `MatchString`. -/
theorem C234_of_match (fold : Nat → Nat → Bool) (pat s : Bytes) (b : Bool) : matchString fold pat s = some b ↔ ∃ k, matchSteps fold pat s = some (b, k) := by
  unfold matchString
  cases h : matchSteps fold pat s with
  | none => simp
  | some x => obtain ⟨c, k⟩ := x; simp

/-- The pattern that takes backtracking searches exponentially long. -/
example : (matchSteps (fun _ _ => false) (s2b "(a+)+$") (s2b "aaaaaaaaaaaaaaaaaaaaab")).map (fun x => (x.1, decide (x.2 ≤ 400))) = some (false, true) := by decide +kernel

/-! ## C235 -/

/-- To check a whole text, put the pattern into `^(?:` … `)$`: then `MatchString` tells whether it fits the text from its begin to its end. -/
theorem C235_whole (fold : Nat → Nat → Bool) (pat s : Bytes) (e : Re) (w : List Nat) (hp : Pattern pat e) (hr : Runes s w) :
    ∃ b, matchString fold ([94, 40, 63, 58] ++ pat ++ [41, 36]) s = some b ∧ (b = true ↔ Fits fold w e 0 w.length) := by
  obtain ⟨b, h1, h2⟩ := C233_finds fold _ s _ w (Gofer.Regexp.whole_pattern pat e hp) hr
  exact ⟨b, h1, h2.trans (Gofer.Regexp.whole_fits fold w e)⟩

/-- That the pattern alone does this. -/
def C235_claim : Prop := ∀ (fold : Nat → Nat → Bool) (pat s : Bytes) (e : Re) (w : List Nat), Pattern pat e → Runes s w → matchString fold pat s = some true → Fits fold w e 0 w.length

/-- That `^` and `$` around it do, without a group. -/
def C235_claim_caret : Prop := ∀ (fold : Nat → Nat → Bool) (pat s : Bytes) (e : Re) (w : List Nat), Pattern pat e → Runes s w → matchString fold ([94] ++ pat ++ [36]) s = some true → Fits fold w e 0 w.length

theorem ab_reads : Pattern (s2b "a|b") (.alt (.cat .eps (.chr false 97)) (.cat .eps (.chr false 98))) := by
  refine ⟨[97, 124, 98], ⟨false, false, false, false⟩, by decide +kernel, by intro c hc; exact .inl (by revert c; decide), ?_⟩
  have h1 := Cat.atom _ _ _ _ _ _ (.nil ⟨false, false, false, false⟩) (.plain _ 97 (by decide))
  have h2 := Cat.atom _ _ _ _ _ _ (.nil ⟨false, false, false, false⟩) (.plain _ 98 (by decide))
  simpa using Alt.bar _ _ _ _ _ _ _ (.one _ _ _ _ h1) h2

theorem ax_runes : Runes (s2b "ax") [97, 120] := by
  have h := Gofer.Regexp.runes_total (s2b "ax")
  have e : Gofer.Regexp.runes (s2b "ax") = [97, 120] := by decide +kernel
  rwa [e] at h

theorem ab_not_ax (fold : Nat → Nat → Bool) : ¬ Fits fold [97, 120] (.alt (.cat .eps (.chr false 97)) (.cat .eps (.chr false 98))) 0 2 := by
  simp only [Fits]
  rintro (⟨k, rfl, h, _⟩ | ⟨k, rfl, h, _⟩) <;> omega

theorem C235_claim_false : ¬ C235_claim := fun h =>
  ab_not_ax _ (h (fun _ _ => false) _ _ _ _ ab_reads ax_runes (by decide +kernel))

theorem C235_claim_caret_false : ¬ C235_claim_caret := fun h =>
  ab_not_ax _ (h (fun _ _ => false) _ _ _ _ ab_reads ax_runes (by decide +kernel))

example : matchString (fun _ _ => false) (s2b "^(?:a|b)$") (s2b "ax") = some false := by decide +kernel
example : matchString (fun _ _ => false) (s2b "^(?:a|b)$") (s2b "b") = some true := by decide +kernel
example : matchString (fun _ _ => false) (s2b "^(?:a|b)$") (s2b "b\n") = some false := by decide +kernel

/-- A backslash before what means something in patterns: any of `\.+*?()|[]{}^$`. -/
def quote (c : Nat) : List Nat := if c ∈ [92, 46, 43, 42, 63, 40, 41, 124, 91, 93, 123, 125, 94, 36] then [92, c] else [c]

theorem quote_atom (f : Mode) (c : Nat) : Atom f (quote c) (.chr f.i c) := by
  unfold quote
  split
  · rename_i h
    refine .esc f _ c (.punct c ?_ ?_)
    · revert c; decide
    · simp only [List.mem_cons, List.not_mem_nil, or_false] at h
      unfold Word
      omega
  · rename_i h
    simp only [List.mem_cons, List.not_mem_nil, or_false, not_or] at h
    refine .plain f c ?_
    simp only [List.mem_cons, List.not_mem_nil, or_false, not_or]
    omega

/-- With that, any text is found where it occurs, as it is written. -/
theorem C235_text (fold : Nat → Nat → Bool) (q : List Nat) (hq : ∀ c ∈ q, Scalar c) (s : Bytes) (w : List Nat) (hr : Runes s w) :
    ∃ b, matchString fold ((q.flatMap quote).flatMap utf8) s = some b ∧ (b = true ↔ q <:+: w) := by
  have hc := Gofer.Regexp.quote_cat ⟨false, false, false, false⟩ quote (quote_atom _) q [] .eps (.nil _)
  have hp : Pattern ((q.flatMap quote).flatMap utf8) (q.foldl (fun e c => .cat e (.chr false c)) .eps) := by
    refine ⟨q.flatMap quote, _, rfl, ?_, .one _ _ _ _ (by simpa using hc)⟩
    intro c hc
    obtain ⟨x, hx, hxc⟩ := List.mem_flatMap.1 hc
    unfold quote at hxc
    split at hxc
    · simp only [List.mem_cons, List.not_mem_nil, or_false] at hxc
      rcases hxc with rfl | rfl
      · exact .inl (by omega)
      · exact hq c hx
    · simp only [List.mem_cons, List.not_mem_nil, or_false] at hxc
      subst hxc
      exact hq c hx
  obtain ⟨b, h1, h2⟩ := C233_finds fold _ s _ w hp hr
  exact ⟨b, h1, h2.trans (Gofer.Regexp.quote_found fold w q)⟩

/-- That this needs no backslashes. -/
def C235_claim_text : Prop := ∀ (fold : Nat → Nat → Bool) (q : List Nat) (s : Bytes) (w : List Nat), (∀ c ∈ q, Scalar c) → Runes s w → matchString fold (q.flatMap utf8) s = some true → q <:+: w

theorem C235_claim_text_false : ¬ C235_claim_text := fun h => by
  have := h (fun _ _ => false) [46] (s2b "ax") _ (by intro c hc; exact .inl (by revert c; decide)) ax_runes (by decide +kernel)
  exact absurd this (by decide)

example : matchString (fun _ _ => false) (s2b "1\\.5") (s2b "v1.5") = some true := by decide +kernel
example : matchString (fun _ _ => false) (s2b "1\\.5") (s2b "v125") = some false := by decide +kernel

/-! ## C236 -/

/-- That `false` means that nothing in the text fits: there is no way to tell a pattern with a mistake in it from one that fits nothing. -/
def C236_claim : Prop := ∀ (fold : Nat → Nat → Bool) (pat s : Bytes), matchString fold pat s = some false → ∃ e w, Pattern pat e ∧ Runes s w ∧ ¬ Found fold w e

/-- A pattern that is not UTF-8 fits nothing. -/
theorem C236_no_utf8 (fold : Nat → Nat → Bool) (pat : Bytes) (h : ¬ ∃ t : List Nat, (∀ c ∈ t, Scalar c) ∧ pat = t.flatMap utf8) (s : Bytes) : matchString fold pat s = some false :=
  Gofer.Regexp.no_utf8_false fold pat s h

/-- A pattern with a parenthesis missing fits nothing, whatever else is in it. -/
theorem C236_missing_paren (fold : Nat → Nat → Bool) (pat : Bytes) (e : Re) (h : Pattern pat e) (s : Bytes) : matchString fold ([40] ++ pat) s = some false := by
  obtain ⟨t, f, rfl, hsc, ha⟩ := h
  have := Gofer.Regexp.bad_false fold (40 :: t) (by
    intro c hc
    rcases List.mem_cons.1 hc with rfl | hc
    · exact .inl (by omega)
    · exact hsc c hc) (Gofer.Regexp.missing_paren ha) s
  simpa [utf8] using this

/-- So does one with a parenthesis too many, whatever follows. -/
theorem C236_extra_paren (fold : Nat → Nat → Bool) (pat : Bytes) (e : Re) (h : Pattern pat e) (r : List Nat) (hr : ∀ c ∈ r, Scalar c) (s : Bytes) : matchString fold (pat ++ [41] ++ r.flatMap utf8) s = some false := by
  obtain ⟨t, f, rfl, hsc, ha⟩ := h
  have := Gofer.Regexp.bad_false fold (t ++ 41 :: r) (by
    intro c hc
    rcases List.mem_append.1 hc with hc | hc
    · exact hsc c hc
    · rcases List.mem_cons.1 hc with rfl | hc
      · exact .inl (by omega)
      · exact hr c hc) (Gofer.Regexp.extra_paren ha r) s
  simpa [utf8] using this

/-- `a**`, `a++`, `(?=a)`, `(?!a)`, `(a)\1`, `a{1001}`, `(?:a{100}){11}`, `a{2,1}`, `[a`, `[b-a]`, `*a`, `\y`, `\`. -/
def others : List (List Nat) :=
  [[97, 42, 42], [97, 43, 43], [40, 63, 61, 97, 41], [40, 63, 33, 97, 41], [40, 97, 41, 92, 49], [97, 123, 49, 48, 48, 49, 125], [40, 63, 58, 97, 123, 49, 48, 48, 125, 41, 123, 49, 49, 125], [97, 123, 50, 44, 49, 125], [91, 97], [91, 98, 45, 97, 93], [42, 97], [92, 121], [92]]

/-- Patterns of other regular expression languages, and counts above 1000, fit nothing. -/
theorem C236_others (fold : Nat → Nat → Bool) (pat : List Nat)
    (h : pat ∈ others) (s : Bytes) :
    matchString fold (pat.flatMap utf8) s = some false := by
  have hs : ∀ q ∈ others, ∀ c ∈ q, c < 128 := by decide +kernel
  have hb : ∀ q ∈ others, (match Gofer.Regexp.parse q with | .error .bad => true | _ => false) = true := by decide +kernel
  refine Gofer.Regexp.bad_false fold pat (fun c hc => .inl (by have := hs pat h c hc; omega)) ?_ s
  have := hb pat h
  revert this
  cases Gofer.Regexp.parse pat with
  | ok x => simp
  | error x => cases x <;> simp

theorem C236_claim_false : ¬ C236_claim := fun h => by
  have hf : ∀ s, matchString (fun _ _ => false) (s2b "a**") s = some false := fun s => by
    have e : s2b "a**" = [97, 42, 42].flatMap utf8 := by decide +kernel
    rw [e]
    exact C236_others _ [97, 42, 42] (by decide) s
  obtain ⟨e, _, ⟨t, f, he, hsc, ha⟩, _⟩ := h _ _ [] (hf [])
  obtain ⟨x, hx, _⟩ := Gofer.Regexp.parse_ok ha
  have ht : some [97, 42, 42] = some t := by
    rw [← Gofer.Regexp.pattern_ok t hsc, ← he]
    decide +kernel
  cases ht
  have hb : (match Gofer.Regexp.parse [97, 42, 42] with | .error .bad => true | _ => false) = true := by decide +kernel
  rw [hx] at hb
  cases hb

example : Pattern (s2b "a|b") (.alt (.cat .eps (.chr false 97)) (.cat .eps (.chr false 98))) := ab_reads
example : matchString (fun _ _ => false) (s2b "(a|b") (s2b "a") = some false := by decide +kernel
example : matchString (fun _ _ => false) (s2b "a|b)") (s2b "a") = some false := by decide +kernel
example : ¬ ∃ t : List Nat, (∀ c ∈ t, Scalar c) ∧ ([0xFF] : Bytes) = t.flatMap utf8 := by
  rintro ⟨t, h, e⟩
  have := Gofer.Regexp.pattern_ok t h
  have e2 : Gofer.Regexp.pattern [0xFF] = none := by decide +kernel
  rw [← e, e2] at this
  cases this

end Gofer.Props.Regexp
