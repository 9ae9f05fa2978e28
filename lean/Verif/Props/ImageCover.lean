import Verif.Proof.ImageCover

/-!
# Modes 1 to 5 of `image`

`modeSize mode w h width height` is the size `Encode` and `Resize` give to an image `w × h` (see Props/Image.lean).
-/
namespace Gofer.Props.ImageCover
open Gofer Gofer.Image

/-! ## C190: modes 2, 3 and 4 cover the box -/

/-- **C190**, the claim: mode 3 with a width and a height gives an image that is at least that wide and that high, or as wide or high as
the original. -/
def C190_claim : Prop :=
  ∀ w h pw ph : Int, 1 ≤ w → w ≤ 2 ^ 25 → 1 ≤ h → h ≤ 2 ^ 25 → 1 ≤ pw → 1 ≤ ph →
    min w pw ≤ (modeSize 3 w h pw ph).1 ∧ min h ph ≤ (modeSize 3 w h pw ph).2

/-- 234 × 54 over 117 × 27 becomes 116 × 27. -/
theorem C190_claim_false : ¬ C190_claim := by
  intro h
  have := (h 234 54 117 27 (by decide) (by decide) (by decide) (by decide) (by decide) (by decide)).1
  revert this
  decide +kernel

/-- **C190, the part that holds**: an image that is not larger than the box on one side stays as it is. Else one side of the box is met
exactly and the other is covered; only if the box has exactly the ratio of the image, one column may be missing. -/
theorem C190_cover_partial {w h pw ph : Int} (hw : 1 ≤ w) (hw' : w ≤ 2 ^ 25) (hh : 1 ≤ h) (hh' : h ≤ 2 ^ 25) (h1 : 1 ≤ pw) (h2 : 1 ≤ ph) :
    (w ≤ pw ∨ h ≤ ph → modeSize 3 w h pw ph = (w, h)) ∧
    (pw < w → ph < h →
      (ph * w < pw * h → (modeSize 3 w h pw ph).1 = pw ∧ ph ≤ (modeSize 3 w h pw ph).2) ∧
      (pw * h < ph * w → (modeSize 3 w h pw ph).2 = ph ∧ pw ≤ (modeSize 3 w h pw ph).1) ∧
      (pw * h = ph * w → (modeSize 3 w h pw ph).2 = ph ∧ pw - 1 ≤ (modeSize 3 w h pw ph).1)) := by
  rw [mode3_eq hw hh h1 h2]
  refine ⟨fun hc => max_whole hw hh hc h1 h2, fun a b => ?_⟩
  obtain ⟨c1, c2⟩ := max_covers hw hw' hh hh' h1 h2 a b
  exact ⟨c1, fun hl => ⟨(c2 (by omega)).1, (c2 (by omega)).2.2 hl⟩, fun he => ⟨(c2 (by omega)).1, (c2 (by omega)).2.1⟩⟩

/-- Modes 2 and 4 are mode 3 with the first bound for the long and the second for the short side. -/
theorem C190_edges {w h long short : Int} (hw : 1 ≤ w) (hh : 1 ≤ h) (h1 : 1 ≤ long) (h2 : 1 ≤ short) {mode : Int} (hm : mode = 2 ∨ mode = 4) :
    modeSize mode w h long short = if h ≤ w then modeSize 3 w h long short else modeSize 3 w h short long := by
  rw [mode24_eq hw hh h1 h2 hm]
  split <;> rfl

/-- With one bound only, modes 3 and 4 take it for both sides. -/
theorem C190_one_bound {w h s : Int} (hw : 1 ≤ w) (hh : 1 ≤ h) (h1 : 1 ≤ s) {mode : Int} (hm : mode = 3 ∨ mode = 4) :
    modeSize mode w h s 0 = modeSize 3 w h s s ∧ modeSize mode w h 0 s = modeSize 3 w h s s := mode34_one hw hh h1 hm

example : (modeSize 3 4000 3000 800 500, modeSize 3 4000 3000 500 800, modeSize 4 3000 4000 800 500, modeSize 2 4000 3000 800 800,
    modeSize 4 4000 3000 0 300, modeSize 3 4000 3000 5000 10) =
    ((800, 600), (1066, 800), (600, 800), (1066, 800), (400, 300), (4000, 3000)) := by decide +kernel

/-! ## C191: thumbnails have the size asked for -/

/-- **C191**, the claim: mode 1 with a width and a height gives an image of exactly that size, where the original is large enough, and of
the original size where it is not. -/
def C191_claim : Prop :=
  ∀ w h pw ph : Int, 1 ≤ w → 1 ≤ h → 1 ≤ pw → 1 ≤ ph → modeSize 1 w h pw ph = (min w pw, min h ph)

/-- An upright image of 100 × 200 for which 300 × 150 is asked keeps its height: the box is turned before it is compared. -/
theorem C191_claim_false : ¬ C191_claim := by
  intro h
  have := h 100 200 300 150 (by decide) (by decide) (by decide) (by decide)
  revert this
  decide +kernel

/-- **C191, the part that holds**: all images that are not upright, and upright ones unless the turned box is larger on both sides;
these stay as they are. -/
theorem C191_thumbnail_partial {w h pw ph : Int} (hw : 1 ≤ w) (hh : 1 ≤ h) (h1 : 1 ≤ pw) (h2 : 1 ≤ ph) :
    (¬ (w < h ∧ w < ph ∧ h < pw) → modeSize 1 w h pw ph = (min w pw, min h ph)) ∧
    (w < h ∧ w < ph ∧ h < pw → modeSize 1 w h pw ph = (w, h)) := by
  rw [modeSize_eq, if_pos (by omega)]
  unfold praseMode newSide4mode
  by_cases hle : h ≤ w
  · refine ⟨fun _ => ?_, fun hc => by omega⟩
    simp only [if_pos hle]
    by_cases hb : w < pw ∧ h < ph
    · rw [if_pos hb]
      simp only [resize_self hw hh]
      rw [show min w pw = w by omega, show min h ph = h by omega]
    · rw [if_neg hb]
      simp only [show (1 : Int) ≠ 0 by decide, if_false, if_true]
      exact thumb_eq hw hh h1 h2
  · simp only [if_neg hle]
    constructor
    · intro hc
      rw [if_neg (by omega)]
      simp only [show (1 : Int) ≠ 0 by decide, if_false, if_true]
      exact thumb_eq hw hh h1 h2
    · intro hc
      rw [if_pos (by omega)]
      simp only [resize_self hw hh]

/-- Mode 5 does what it should: the first bound is for the long, the second for the short side. -/
theorem C191_edges {w h long short : Int} (hw : 1 ≤ w) (hh : 1 ≤ h) (h1 : 1 ≤ long) (h2 : 1 ≤ short) :
    modeSize 5 w h long short = if h ≤ w then (min w long, min h short) else (min w short, min h long) := by
  rw [modeSize_eq, if_pos (by omega)]
  unfold praseMode newSide4mode
  by_cases hle : h ≤ w
  · simp only [if_pos hle]
    by_cases hb : w < long ∧ h < short
    · rw [if_pos hb]
      simp only [resize_self hw hh]
      rw [show min w long = w by omega, show min h short = h by omega]
    · rw [if_neg hb]
      simp only [show (5 : Int) ≠ 0 by decide, show (5 : Int) ≠ 1 by decide, show (5 : Int) ≠ 2 by decide, show (5 : Int) ≠ 3 by decide,
        show (5 : Int) ≠ 4 by decide, if_false, if_true]
      exact thumb_eq hw hh h1 h2
  · simp only [if_neg hle]
    by_cases hb : w < short ∧ h < long
    · rw [if_pos hb]
      simp only [resize_self hw hh]
      rw [show min w short = w by omega, show min h long = h by omega]
    · rw [if_neg hb]
      simp only [show (5 : Int) ≠ 0 by decide, show (5 : Int) ≠ 1 by decide, show (5 : Int) ≠ 2 by decide, show (5 : Int) ≠ 3 by decide,
        show (5 : Int) ≠ 4 by decide, if_false, if_true]
      exact thumb_eq hw hh h2 h1

/-- With one bound mode 1 gives a square, whose side is limited by that side of the original only; so an image that is narrower in the
other direction is enlarged. -/
theorem C191_one_bound {w h s : Int} (hw : 1 ≤ w) (hh : 1 ≤ h) (h1 : 1 ≤ s) :
    modeSize 1 w h s 0 = (min w s, min w s) ∧ modeSize 1 w h 0 s = (min h s, min h s) := by
  obtain ⟨t1, t2⟩ := thumb_one hw hh h1
  rw [modeSize_eq, modeSize_eq, if_pos (by omega), if_pos (by omega)]
  unfold praseMode newSide4mode
  by_cases hle : h ≤ w
  · simp only [if_pos hle]
    rw [if_neg (show ¬ (w < s ∧ h < 0) by omega), if_neg (show ¬ (w < 0 ∧ h < s) by omega)]
    simp only [show (1 : Int) ≠ 0 by decide, if_false, if_true]
    exact ⟨t1, t2⟩
  · simp only [if_neg hle]
    rw [if_neg (show ¬ (w < s ∧ h < 0) by omega), if_neg (show ¬ (w < 0 ∧ h < s) by omega)]
    simp only [show (1 : Int) ≠ 0 by decide, if_false, if_true]
    exact ⟨t1, t2⟩

example : (modeSize 1 4000 3000 200 100, modeSize 1 3000 4000 200 100, modeSize 5 3000 4000 200 100, modeSize 1 1000 10 500 0) =
    ((200, 100), (200, 100), (100, 200), (500, 500)) := by decide +kernel

end Gofer.Props.ImageCover
