import Verif.Proof.StrTime
/-!
# Properties of `StrToTimeFormat`: C145 to C148
-/
namespace Gofer.Props.StrTime
open Gofer.StrTime Gofer.Spec.Time

/-! ## C145: which strings are taken -/

/-- The claim: without error only the strings `2006-01-02 15:04:05` of dates of the calendar. -/
def C145_claim : Prop :=
  ∀ (z : Zone) (s : Str) (t : Int) (n : Nat), strToTimeFormat (some z) s = .ok t n → ∃ f, Valid f ∧ s = stamp f

/-- It fails: `2023-05-06   7:08:09,5` is taken. -/
theorem C145_claim_false : ¬ C145_claim := by
  intro h
  have e : strToTimeFormat (some shanghai)
      [50, 48, 50, 51, 45, 48, 53, 45, 48, 54, 32, 32, 32, 55, 58, 48, 56, 58, 48, 57, 44, 53] = .ok 1683328089 500000000 := by decide +kernel
  obtain ⟨f, _, hf⟩ := h _ _ _ _ e
  have := congrArg List.length hf
  simp [stamp, two] at this

/-- Every `2006-01-02 15:04:05` of the calendar from year 0 to 9999 is taken, in every zone. -/
theorem C145_canonical (z : Zone) (f : Fields) (hv : Valid f) (hn : f.nsec = 0) :
    ∃ t, strToTimeFormat (some z) (stamp f) = .ok t 0 := ⟨_, canonical z f hv hn⟩

/-- Exactly the strings that are `Written` are taken: with several spaces, hours of one digit and fractions too, but no day
that is not in the calendar. Partial: these are more than the layout. -/
theorem C145_accepts_partial (z : Zone) (s : Str) :
    (∃ t n, strToTimeFormat (some z) s = .ok t n) ↔ ∃ f, Written s f := by
  unfold strToTimeFormat
  constructor
  · rintro ⟨t, n, h⟩
    cases hp : parse s with
    | none => rw [hp] at h; cases h
    | some f => exact ⟨f, written_of_parse hp⟩
  · rintro ⟨f, hf⟩
    rw [parse_of_written hf]
    exact ⟨_, _, rfl⟩

/-- A string has at most one meaning. -/
theorem C145_unambiguous (s : Str) (f g : Fields) (hf : Written s f) (hg : Written s g) : f = g :=
  Option.some.inj ((parse_of_written hf).symm.trans (parse_of_written hg))

/-- A string of 19 bytes taken without error is of the layout if there is no second space (and no fraction). -/
theorem C145_nineteen (z : Zone) (s : Str) (t : Int) (h : strToTimeFormat (some z) s = .ok t 0) (hl : s.length = 19)
    (h11 : s[11]? ≠ some 32) : ∃ f, Valid f ∧ s = stamp f := by
  obtain ⟨f, hv, k, hh, frac, hs, hh', hf⟩ := (C145_accepts_partial z s).mp ⟨_, _, h⟩
  refine ⟨f, hv, ?_⟩
  have hk : k = 0 := by
    cases k with
    | zero => rfl
    | succ k => exact absurd (by rw [hs]; simp [two, List.replicate_succ]) h11
  subst hk
  have hlen := congrArg List.length hs
  rcases hh' with hh' | ⟨_, hh'⟩
  · rw [hh'] at hs hlen
    rcases hf with ⟨hf, _⟩ | ⟨_, ds, _, _, _, hf, _⟩
    · rw [hs, hf]; simp [stamp]
    · rw [hl, hf] at hlen; simp [two] at hlen
  · rw [hh'] at hs hlen
    rcases hf with ⟨hf, _⟩ | ⟨_, ds, _, hne, _, hf, _⟩
    · rw [hl, hf] at hlen; simp [two] at hlen
    · rw [hl, hf] at hlen
      simp [two] at hlen
      exact absurd hlen hne

/-- 29 February 2024 is taken, 29 February 2023 is not. -/
example : strToTimeFormat (some shanghai) (stamp ⟨2024, 2, 29, 0, 0, 0, 0⟩) = .ok 1709136000 0 ∧
    strToTimeFormat (some shanghai) (stamp ⟨2023, 2, 29, 0, 0, 0, 0⟩) = .err := by decide +kernel

/-- The hypotheses of `C145_nineteen` in a concrete case. -/
example : strToTimeFormat (some shanghai) (stamp ⟨2024, 2, 29, 0, 0, 0, 0⟩) = .ok 1709136000 0 ∧ (stamp ⟨2024, 2, 29, 0, 0, 0, 0⟩).length = 19 ∧
    (stamp ⟨2024, 2, 29, 0, 0, 0, 0⟩)[11]? ≠ some 32 := by decide +kernel

/-! ## C146: no panic -/

/-- The claim: no string makes it panic. -/
def C146_claim : Prop := ∀ (zone : Option Zone) (s : Str), strToTimeFormat zone s ≠ .panic

/-- It fails on a computer without a time zone database: the error of `LoadLocation` is dropped. -/
theorem C146_claim_false : ¬ C146_claim := fun h => h none (stamp ⟨2024, 2, 29, 0, 0, 0, 0⟩) (by decide +kernel)

/-- It panics exactly for the well written strings if there is no zone; wrong strings are errors everywhere. -/
theorem C146_panic_partial (zone : Option Zone) (s : Str) :
    (strToTimeFormat zone s = .panic ↔ zone = none ∧ ∃ f, Written s f) ∧ (strToTimeFormat zone s = .err ↔ ¬ ∃ f, Written s f) := by
  unfold strToTimeFormat
  cases hp : parse s with
  | none =>
    have hn : ¬ ∃ f, Written s f := by
      rintro ⟨f, hf⟩
      rw [parse_of_written hf] at hp
      cases hp
    exact ⟨⟨nofun, fun h => absurd h.2 hn⟩, ⟨fun _ => hn, fun _ => rfl⟩⟩
  | some f =>
    have hw : ∃ f, Written s f := ⟨f, written_of_parse hp⟩
    cases zone with
    | none => exact ⟨⟨fun _ => ⟨rfl, hw⟩, fun _ => rfl⟩, ⟨nofun, fun h => absurd hw h⟩⟩
    | some z => exact ⟨⟨nofun, fun h => nomatch h.1⟩, ⟨nofun, fun h => absurd hw h⟩⟩

example : strToTimeFormat none [50, 48, 50, 52] = .err ∧ strToTimeFormat none (stamp ⟨2024, 2, 29, 0, 0, 0, 0⟩) = .panic := by decide +kernel

/-! ## C147: the moment shows what was written -/

/-- The claim: at the moment returned clocks in Shanghai show the date and time of the string. -/
def C147_claim : Prop :=
  ∀ (f : Fields) (t : Int) (n : Nat), Valid f → strToTimeFormat (some shanghai) (stamp f) = .ok t n → Shows shanghai t (clock f)

/-- It fails for 1991-04-14 02:30:00, when summer time began at 02:00. -/
theorem C147_claim_false : ¬ C147_claim := fun h => by
  have := h ⟨1991, 4, 14, 2, 30, 0, 0⟩ 671567400 0 (by decide +kernel) (by decide +kernel)
  revert this
  unfold Shows
  decide +kernel

/-- It holds for every string and every time that clocks in Shanghai have shown or will show. Partial: times left out by summer time. -/
theorem C147_shows_partial (s : Str) (f : Fields) (hw : Written s f) (t : Int) (ht : Shows shanghai t (clock f)) :
    ∃ t', strToTimeFormat (some shanghai) s = .ok t' f.nsec ∧ Shows shanghai t' (clock f) := by
  refine ⟨toMoment shanghai (clock f), ?_, toMoment_shows east_shanghai _ t ht⟩
  unfold strToTimeFormat
  rw [parse_of_written hw]
  dsimp only
  rw [asUTC_eq f hw.1.2.1 hw.1.2.2.1]

/-- A time that clocks never showed is taken as one an hour later. -/
theorem C147_gap (s : Str) (f : Fields) (hw : Written s f) (ht : ∀ t, ¬ Shows shanghai t (clock f)) :
    ∃ t', strToTimeFormat (some shanghai) s = .ok t' f.nsec ∧ Shows shanghai t' (clock f + 3600) := by
  obtain ⟨o1, o2, hp, hlt, hs⟩ := toMoment_gap east_shanghai _ ht
  have h3600 := pairs_shanghai _ hp hlt
  dsimp only at h3600
  rw [h3600] at hs
  refine ⟨toMoment shanghai (clock f), ?_, hs⟩
  unfold strToTimeFormat
  rw [parse_of_written hw]
  dsimp only
  rw [asUTC_eq f hw.1.2.1 hw.1.2.2.1]

/-- From 1991-09-15 01:00:00 on: eight hours before the same time of UTC. -/
theorem C147_late (f : Fields) (hv : Valid f) (hn : f.nsec = 0) (hl : clock ⟨1991, 9, 15, 1, 0, 0, 0⟩ ≤ clock f) :
    strToTimeFormat (some shanghai) (stamp f) = .ok (clock f - 28800) 0 := by
  have e : clock ⟨1991, 9, 15, 1, 0, 0, 0⟩ = 684896400 := by decide +kernel
  rw [e] at hl
  rw [canonical shanghai f hv hn, shanghai_late _ hl]

/-- In the hour that comes twice it is the second, winter time: 1991-09-15 01:30:00. -/
example : strToTimeFormat (some shanghai) (stamp ⟨1991, 9, 15, 1, 30, 0, 0⟩) = .ok 684869400 0 ∧
    Shows shanghai 684869400 (clock ⟨1991, 9, 15, 1, 30, 0, 0⟩) ∧ Shows shanghai (684869400 - 3600) (clock ⟨1991, 9, 15, 1, 30, 0, 0⟩) := by
  unfold Shows
  decide +kernel

/-- The hypotheses of `C147_shows_partial` in summer time. -/
example : Valid ⟨1990, 7, 1, 12, 0, 0, 0⟩ ∧ Shows shanghai 646801200 (clock ⟨1990, 7, 1, 12, 0, 0, 0⟩) := by
  unfold Shows
  decide +kernel

/-- The hypothesis of `C147_gap` for 1991-04-14 02:30:00. -/
example : ∀ t, ¬ Shows shanghai t (clock ⟨1991, 4, 14, 2, 30, 0, 0⟩) := by
  intro t ht
  have h1 := toMoment_shows east_shanghai _ t ht
  revert h1
  unfold Shows
  decide +kernel

/-! ## C148: order -/

/-- The claim: a string that is later in the order of strings gives a later time. -/
def C148_claim : Prop :=
  ∀ (f g : Fields) (t t' : Int), Valid f → Valid g → strToTimeFormat (some shanghai) (stamp f) = .ok t 0 →
    strToTimeFormat (some shanghai) (stamp g) = .ok t' 0 → lexLt (stamp f) (stamp g) = true → t < t'

/-- It fails: 1991-04-14 02:30:00 is taken as a later time than 1991-04-14 03:10:00. -/
theorem C148_claim_false : ¬ C148_claim := fun h => by
  have := h ⟨1991, 4, 14, 2, 30, 0, 0⟩ ⟨1991, 4, 14, 3, 10, 0, 0⟩ 671567400 671566200 (by decide +kernel) (by decide +kernel) (by decide +kernel)
    (by decide +kernel) (by decide +kernel)
  omega

/-- From 1991-09-15 01:00:00 to the end of the year 9999 the order of the strings is that of the times. Partial: before, it is not. -/
theorem C148_order_partial (f g : Fields) (t t' : Int) (hf : Valid f) (hg : Valid g) (nf : f.nsec = 0) (ng : g.nsec = 0)
    (lf : clock ⟨1991, 9, 15, 1, 0, 0, 0⟩ ≤ clock f) (lg : clock ⟨1991, 9, 15, 1, 0, 0, 0⟩ ≤ clock g)
    (h : strToTimeFormat (some shanghai) (stamp f) = .ok t 0) (h' : strToTimeFormat (some shanghai) (stamp g) = .ok t' 0) :
    lexLt (stamp f) (stamp g) = true ↔ t < t' := by
  rw [C147_late f hf nf lf] at h
  rw [C147_late g hg ng lg] at h'
  cases h
  cases h'
  rw [lexLt_clock f g hf hg]
  omega

/-- In any zone of one offset the order of the strings is that of the times. -/
theorem C148_order_fixed (o : Int) (f g : Fields) (hf : Valid f) (hg : Valid g) (nf : f.nsec = 0) (ng : g.nsec = 0) (t t' : Int)
    (h : strToTimeFormat (some ⟨o, []⟩) (stamp f) = .ok t 0) (h' : strToTimeFormat (some ⟨o, []⟩) (stamp g) = .ok t' 0) :
    lexLt (stamp f) (stamp g) = true ↔ t < t' := by
  have e : ∀ c, toMoment ⟨o, []⟩ c = c - o := by
    intro c
    simp only [toMoment, lookup, Option.any_none, Bool.or_self]
    split
    · omega
    · rfl
  rw [canonical _ f hf nf, e] at h
  rw [canonical _ g hg ng, e] at h'
  cases h
  cases h'
  rw [lexLt_clock f g hf hg]
  omega

example : Valid ⟨2023, 12, 31, 23, 59, 59, 0⟩ ∧ Valid ⟨2024, 1, 1, 0, 0, 0, 0⟩ ∧
    clock ⟨1991, 9, 15, 1, 0, 0, 0⟩ ≤ clock ⟨2023, 12, 31, 23, 59, 59, 0⟩ ∧
    strToTimeFormat (some shanghai) (stamp ⟨2023, 12, 31, 23, 59, 59, 0⟩) = .ok 1704038399 0 ∧
    strToTimeFormat (some shanghai) (stamp ⟨2024, 1, 1, 0, 0, 0, 0⟩) = .ok 1704038400 0 := by decide +kernel

end Gofer.Props.StrTime
