import Verif.Proof.ImageMore

/-! # The modes that cover a box, and thumbnails, in `image` -/
namespace Gofer.Image
open Gofer F64

/-- Quotients of sides compare as fractions although they are rounded. -/
theorem frac_lt {a b w h : Int} (ha : 1 ≤ a) (ha' : a ≤ 2 ^ 25) (hb : 1 ≤ b) (hb' : b ≤ 2 ^ 25) (hw : 1 ≤ w) (hw' : w ≤ 2 ^ 25)
    (hh : 1 ≤ h) (hh' : h ≤ 2 ^ 25) : div (ofInt b) (ofInt h) < div (ofInt a) (ofInt w) ↔ b * w < a * h := by
  have w0 : (0 : ℚ) < w := by exact_mod_cast (by omega : (0 : Int) < w)
  have h0 : (0 : ℚ) < h := by exact_mod_cast (by omega : (0 : Int) < h)
  constructor
  · intro hlt
    by_contra hn
    have hle : a * h ≤ b * w := by omega
    have hq : (a : ℚ) * h ≤ b * w := by exact_mod_cast hle
    rw [ofInt_exact (n := a) (by omega) (by omega), ofInt_exact (n := b) (by omega) (by omega), ofInt_exact (n := w) (by omega) (by omega),
      ofInt_exact (n := h) (by omega) (by omega)] at hlt
    have : (a : ℚ) / w ≤ b / h := by rw [div_le_div_iff₀ w0 h0]; exact hq
    exact absurd hlt (not_lt.2 (rnd_mono this))
  · intro hlt
    by_contra hn
    have hle := not_lt.1 hn
    obtain ⟨p0, p1, p2⟩ := ratio_near ha (by omega) hw (by omega)
    obtain ⟨q0, q1, q2⟩ := ratio_near hb (by omega) hh (by omega)
    generalize div (ofInt a) (ofInt w) = p at *
    generalize div (ofInt b) (ofInt h) = q at *
    have m1 : a * h ≤ 2 ^ 50 := prod_le (by omega) ha' (by omega) hh'
    have m2 : b * w ≤ 2 ^ 50 := prod_le (by omega) hb' (by omega) hw'
    have n1 : (a : ℚ) * h ≤ 2 ^ 50 := by exact_mod_cast m1
    have n2 : (b : ℚ) * w ≤ 2 ^ 50 := by exact_mod_cast m2
    have hq : (b : ℚ) * w + 1 ≤ a * h := by exact_mod_cast hlt
    have k1 : (a : ℚ) * (1 - 1 / 2 ^ 53) * h ≤ p * w * h := mul_le_mul_of_nonneg_right p1 h0.le
    have k2 : q * h * w ≤ b * (1 + 1 / 2 ^ 53) * w := mul_le_mul_of_nonneg_right q2 w0.le
    have k3 : p * (w * h) ≤ q * (w * h) := mul_le_mul_of_nonneg_right hle (by positivity)
    have k1' : ((a : ℚ) * h) * (1 - 1 / 2 ^ 53) ≤ p * (w * h) := by linarith
    have k2' : q * (w * h) ≤ ((b : ℚ) * w) * (1 + 1 / 2 ^ 53) := by linarith
    generalize (a : ℚ) * h = x at *
    generalize (b : ℚ) * w = y at *
    generalize p * ((w : ℚ) * h) = u at *
    generalize q * ((w : ℚ) * h) = v at *
    norm_num at n1 n2 k1' k2'
    linarith

section
variable {w h : Int} (hw : 1 ≤ w) (hw' : w ≤ 2 ^ 25) (hh : 1 ≤ h) (hh' : h ≤ 2 ^ 25)
include hw hw' hh hh'

/-- The size that covers `a × b`: one side is met, the other covered up to a pixel. -/
theorem max_covers {a b : Int} (ha : 1 ≤ a) (hb : 1 ≤ b) (h1 : a < w) (h2 : b < h) :
    (b * w < a * h → (resizeSize w h (getMaxAndkeepRatio w h a b).1 (getMaxAndkeepRatio w h a b).2).1 = a ∧
      b ≤ (resizeSize w h (getMaxAndkeepRatio w h a b).1 (getMaxAndkeepRatio w h a b).2).2) ∧
    (a * h ≤ b * w → (resizeSize w h (getMaxAndkeepRatio w h a b).1 (getMaxAndkeepRatio w h a b).2).2 = b ∧
      a - 1 ≤ (resizeSize w h (getMaxAndkeepRatio w h a b).1 (getMaxAndkeepRatio w h a b).2).1 ∧
      (a * h < b * w → a ≤ (resizeSize w h (getMaxAndkeepRatio w h a b).1 (getMaxAndkeepRatio w h a b).2).1)) := by
  have cmp := frac_lt ha (by omega) hb (by omega) hw hw' hh hh'
  obtain ⟨_, d2⟩ := divr_bracket hw hw' hh hh' (n := a) (by omega) (by omega)
  obtain ⟨_, m2⟩ := mulr_bracket hw hw' hh hh' (n := b) (by omega) (by omega)
  have m0 := mulr_nonneg hw (by omega) hh (by omega) (n := b) (by omega) (by omega)
  unfold getMaxAndkeepRatio
  simp only
  rw [if_neg (by omega : ¬ a = 0), if_neg (by omega : ¬ b = 0), if_neg (by omega : ¬ (w ≤ a ∨ h ≤ b)), if_pos ⟨h1, h2⟩]
  constructor
  · intro hlt
    rw [if_pos (cmp.2 hlt)]
    generalize toInt (div (ofInt a) (div (ofInt w) (ofInt h))) = t at *
    have : b < t + 1 := by
      have : b * w < (t + 1) * w := by omega
      exact lt_of_mul_lt_mul_right this (by omega)
    simp only
    rw [resizeSize_eq, if_neg (by omega), if_neg (by omega), if_neg (by omega), if_neg (by omega), if_neg (by omega)]
    exact ⟨rfl, by omega⟩
  · intro hle
    rw [if_neg (fun hc => by have := cmp.1 hc; omega)]
    generalize toInt (mul (ofInt b) (div (ofInt w) (ofInt h))) = t at *
    have e1 : a ≤ t + 1 := by
      have : a * h ≤ (t + 1) * h := by omega
      exact le_of_mul_le_mul_right this (by omega)
    have e2 : a * h < b * w → a < t + 1 := fun hlt => by
      have : a * h < (t + 1) * h := by omega
      exact lt_of_mul_lt_mul_right this (by omega)
    simp only
    rw [resizeSize_eq, if_neg (by omega), if_neg (by omega), if_neg (by omega)]
    split
    · rename_i ht
      have := autoSide_pos (div (mul (ofInt b) (ofInt w)) (ofInt h))
      refine ⟨rfl, by simp only; omega, fun hlt => ?_⟩
      have := e2 hlt
      simp only; omega
    · rw [if_neg (by omega)]
      refine ⟨rfl, by simp only; omega, fun hlt => ?_⟩
      have := e2 hlt
      simp only; omega

omit hw' hh' in
theorem max_whole {a b : Int} (hc : w ≤ a ∨ h ≤ b) (ha : 1 ≤ a) (hb : 1 ≤ b) :
    resizeSize w h (getMaxAndkeepRatio w h a b).1 (getMaxAndkeepRatio w h a b).2 = (w, h) := by
  unfold getMaxAndkeepRatio
  simp only
  rw [if_neg (by omega : ¬ a = 0), if_neg (by omega : ¬ b = 0), if_pos hc]
  exact resize_self hw hh

end

/-! ## The modes -/

section
variable {w h : Int} (hw : 1 ≤ w) (hh : 1 ≤ h)
include hw hh

theorem mode3_eq {pw ph : Int} (h1 : 1 ≤ pw) (h2 : 1 ≤ ph) :
    modeSize 3 w h pw ph = resizeSize w h (getMaxAndkeepRatio w h pw ph).1 (getMaxAndkeepRatio w h pw ph).2 := by
  rw [modeSize_eq, if_pos (by omega)]
  unfold praseMode newSide4mode
  by_cases hle : h ≤ w
  · simp only [if_pos hle]
    by_cases hb : w < pw ∧ h < ph
    · rw [if_pos hb, max_whole hw hh (by omega) h1 h2]
      exact resize_self hw hh
    · rw [if_neg hb]
      simp [show ¬ pw = 0 by omega, show ¬ ph = 0 by omega]
  · simp only [if_neg hle]
    by_cases hb : w < ph ∧ h < pw
    · rw [if_pos hb, max_whole hw hh (by omega) h1 h2]
      exact resize_self hw hh
    · rw [if_neg hb]
      simp [show ¬ pw = 0 by omega, show ¬ ph = 0 by omega]

theorem mode24_eq {long short : Int} (h1 : 1 ≤ long) (h2 : 1 ≤ short) {mode : Int} (hm : mode = 2 ∨ mode = 4) :
    modeSize mode w h long short = modeSize 3 w h (if h ≤ w then long else short) (if h ≤ w then short else long) := by
  rw [mode3_eq hw hh (by split <;> omega) (by split <;> omega), modeSize_eq, if_pos (by omega)]
  unfold praseMode newSide4mode
  by_cases hle : h ≤ w
  · simp only [if_pos hle]
    by_cases hb : w < long ∧ h < short
    · rw [if_pos hb, max_whole hw hh (by omega) h1 h2]
      exact resize_self hw hh
    · rw [if_neg hb]
      rcases hm with rfl | rfl <;> simp [show ¬ long = 0 by omega, show ¬ short = 0 by omega]
  · simp only [if_neg hle]
    by_cases hb : w < short ∧ h < long
    · rw [if_pos hb, max_whole hw hh (by omega) h2 h1]
      exact resize_self hw hh
    · rw [if_neg hb]
      rcases hm with rfl | rfl <;> simp [show ¬ long = 0 by omega, show ¬ short = 0 by omega]

/-- One side given: as if both were. -/
theorem mode34_one {s : Int} (h1 : 1 ≤ s) {mode : Int} (hm : mode = 3 ∨ mode = 4) :
    modeSize mode w h s 0 = modeSize 3 w h s s ∧ modeSize mode w h 0 s = modeSize 3 w h s s := by
  rw [mode3_eq hw hh h1 h1, modeSize_eq, modeSize_eq, if_pos (by omega), if_pos (by omega)]
  unfold praseMode newSide4mode
  by_cases hle : h ≤ w
  · simp only [if_pos hle]
    rcases hm with rfl | rfl <;> simp [show ¬ s = 0 by omega, show ¬ (w < s ∧ h < 0) by omega, show ¬ (w < 0 ∧ h < s) by omega]
  · simp only [if_neg hle]
    rcases hm with rfl | rfl <;> simp [show ¬ s = 0 by omega, show ¬ (w < s ∧ h < 0) by omega, show ¬ (w < 0 ∧ h < s) by omega]

theorem thumb_eq {a b : Int} (h1 : 1 ≤ a) (h2 : 1 ≤ b) :
    fillSize w h (getSideByThubnail w h a b).1 (getSideByThubnail w h a b).2 = (min w a, min h b) := by
  unfold getSideByThubnail fillSize
  simp only
  rw [show (if a < w then a else w) = min w a by split <;> omega, show (if b < h then b else h) = min h b by split <;> omega,
    if_neg (by omega : ¬ min w a = 0), if_neg (by omega : ¬ min h b = 0), if_neg (by omega), if_neg (by omega)]

theorem thumb_one {a : Int} (h1 : 1 ≤ a) :
    fillSize w h (getSideByThubnail w h a 0).1 (getSideByThubnail w h a 0).2 = (min w a, min w a) ∧
    fillSize w h (getSideByThubnail w h 0 a).1 (getSideByThubnail w h 0 a).2 = (min h a, min h a) := by
  unfold getSideByThubnail fillSize
  simp only
  rw [show (if a < w then a else w) = min w a by split <;> omega, show (if a < h then a else h) = min h a by split <;> omega,
    if_pos (by omega : 0 < h), if_pos (by omega : 0 < w)]
  simp only [if_true]
  constructor
  · rw [if_neg (by omega : ¬ min w a = 0), if_neg (by omega), if_neg (by omega)]
  · rw [if_neg (by omega : ¬ min h a = 0), if_neg (by omega), if_neg (by omega)]

end
end Gofer.Image
