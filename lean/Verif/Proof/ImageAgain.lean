import Verif.Proof.ImageMore
/-! # Resizing once more: lemmas for `Verif/Props/ImageAgain.lean` -/
namespace Gofer.ImageAgain
open Gofer F64 Gofer.Image

theorem ratio_ge {w h : Int} (hw' : w ≤ 2 ^ 25) (hh : 1 ≤ h) (hl : h ≤ w) : 1 ≤ div (ofInt w) (ofInt h) := by
  rw [ofInt_exact (by omega) (by omega), ofInt_exact (by omega) (by omega)]
  have h0 : (0 : ℚ) < h := by exact_mod_cast (by omega : (0 : Int) < h)
  have : (h : ℚ) ≤ w := by exact_mod_cast hl
  have e : rnd ((1 : Int) : ℚ) = ((1 : Int) : ℚ) := rnd_int (by norm_num) (by norm_num)
  have := rnd_mono (p := ((1 : Int) : ℚ)) (q := (w : ℚ) / h) (by rw [le_div_iff₀ h0]; push_cast; linarith)
  rw [e] at this
  simpa [div] using this

theorem ratio_le {w h : Int} (hw : 1 ≤ w) (hh' : h ≤ 2 ^ 25) (hl : w ≤ h) : div (ofInt w) (ofInt h) ≤ 1 := by
  rw [ofInt_exact (by omega) (by omega), ofInt_exact (by omega) (by omega)]
  have h0 : (0 : ℚ) < h := by exact_mod_cast (by omega : (0 : Int) < h)
  have : (w : ℚ) ≤ h := by exact_mod_cast hl
  have e : rnd ((1 : Int) : ℚ) = ((1 : Int) : ℚ) := rnd_int (by norm_num) (by norm_num)
  have := rnd_mono (q := ((1 : Int) : ℚ)) (p := (w : ℚ) / h) (by rw [div_le_iff₀ h0]; push_cast; linarith)
  rw [e] at this
  simpa [div] using this

section
variable {w h : Int} (hw : 1 ≤ w) (hw' : w ≤ 2 ^ 25) (hh : 1 ≤ h) (hh' : h ≤ 2 ^ 25)
include hw hw' hh hh'

theorem mulr_ge {n : Int} (h1 : 1 ≤ n) (h1' : n ≤ 2 ^ 25) (hl : h ≤ w) : n ≤ toInt (mul (ofInt n) (div (ofInt w) (ofInt h))) := by
  have r1 := ratio_ge hw' hh hl
  generalize div (ofInt w) (ofInt h) = r at *
  have n0 : (0 : ℚ) < n := by exact_mod_cast (by omega : (0 : Int) < n)
  have e : rnd (n : ℚ) = n := rnd_int (by omega) (by omega)
  have : (n : ℚ) ≤ mul (ofInt n) r := by
    rw [ofInt_exact (by omega) (by omega)]
    have := rnd_mono (p := (n : ℚ)) (q := n * r) (by nlinarith)
    rw [e] at this
    exact this
  exact le_toInt this (by linarith)

theorem divr_ge {n : Int} (h1 : 1 ≤ n) (h1' : n ≤ 2 ^ 25) (hl : w ≤ h) : n ≤ toInt (div (ofInt n) (div (ofInt w) (ofInt h))) := by
  have r1 := ratio_le hw hh' hl
  have r0 := (ratio_near hw (by omega) hh (by omega)).1
  generalize div (ofInt w) (ofInt h) = r at *
  have n0 : (0 : ℚ) < n := by exact_mod_cast (by omega : (0 : Int) < n)
  have e : rnd (n : ℚ) = n := rnd_int (by omega) (by omega)
  have : (n : ℚ) ≤ div (ofInt n) r := by
    rw [ofInt_exact (by omega) (by omega)]
    have := rnd_mono (p := (n : ℚ)) (q := n / r) (by rw [le_div_iff₀ r0]; nlinarith)
    rw [e] at this
    exact this
  exact le_toInt this (by linarith)

/-- The height is given and the width follows. -/
theorem by_height {n : Int} (h1 : 1 ≤ n) (h2 : n ≤ h) {R : Int × Int} (e : R = resizeSize w h (toInt (mul (ofInt n) (div (ofInt w) (ofInt h)))) n) :
    R.2 = n ∧ 1 ≤ R.1 ∧ (h ≤ w → n ≤ R.1) ∧ (w ≤ h → R.1 ≤ n) ∧ ∀ m, 1 ≤ m → n * w ≤ m * h → R.1 ≤ m := by
  obtain ⟨b1, b2⟩ := mulr_bracket hw hw' hh hh' (n := n) (by omega) (by omega)
  have t0 := mulr_nonneg hw (by omega) hh (by omega) (n := n) (by omega) (by omega)
  have t1 := fun hl => mulr_ge hw hw' hh hh' (n := n) h1 (by omega) hl
  generalize toInt (mul (ofInt n) (div (ofInt w) (ofInt h))) = t at *
  rw [resizeSize_eq, if_neg (by omega), if_neg (by omega), if_neg (by omega)] at e
  split at e
  · rename_i ht
    subst ht e
    have a1 := auto_le hw (by omega) hh (by omega) (n := n) (m := 1) (by omega) (by omega) (by omega) (by norm_num) (by simpa using b2)
    have a2 := autoSide_pos (div (mul (ofInt n) (ofInt w)) (ofInt h))
    refine ⟨rfl, a2, fun hl => ?_, fun hl => ?_, fun m hm _ => le_trans a1 hm⟩
    · have := t1 hl; omega
    · exact le_trans a1 h1
  · rw [if_neg (by omega)] at e
    subst e
    refine ⟨rfl, by show 1 ≤ t; omega, t1, fun hl => ?_, fun m hm hle => le_of_mul_le_mul_right (le_trans b1 hle) (by omega)⟩
    show t ≤ n
    exact le_of_mul_le_mul_right (le_trans b1 (mul_le_mul_of_nonneg_left hl (by omega))) (by omega : 0 < h)

/-- The width is given and the height follows. -/
theorem by_width {n : Int} (h1 : 1 ≤ n) (h2 : n ≤ w) {R : Int × Int} (e : R = resizeSize w h n (toInt (div (ofInt n) (div (ofInt w) (ofInt h))))) :
    R.1 = n ∧ 1 ≤ R.2 ∧ (w ≤ h → n ≤ R.2) ∧ (h ≤ w → R.2 ≤ n) ∧ ∀ m, 1 ≤ m → n * h ≤ m * w → R.2 ≤ m := by
  obtain ⟨b1, b2⟩ := divr_bracket hw hw' hh hh' (n := n) (by omega) (by omega)
  have t0 := divr_nonneg hw (by omega) hh (by omega) (n := n) (by omega) (by omega)
  have t1 := fun hl => divr_ge hw hw' hh hh' (n := n) h1 (by omega) hl
  generalize toInt (div (ofInt n) (div (ofInt w) (ofInt h))) = t at *
  rw [resizeSize_eq, if_neg (by omega), if_neg (by omega), if_neg (by omega), if_neg (by omega)] at e
  split at e
  · rename_i ht
    subst ht e
    have a1 := auto_le hh (by omega) hw (by omega) (n := n) (m := 1) (by omega) (by omega) (by omega) (by norm_num) (by simpa using b2)
    have a2 := autoSide_pos (div (mul (ofInt n) (ofInt h)) (ofInt w))
    refine ⟨rfl, a2, fun hl => ?_, fun hl => ?_, fun m hm _ => le_trans a1 hm⟩
    · have := t1 hl; omega
    · exact le_trans a1 h1
  · subst e
    refine ⟨rfl, by show 1 ≤ t; omega, t1, fun hl => ?_, fun m hm hle => le_of_mul_le_mul_right (le_trans b1 hle) (by omega)⟩
    show t ≤ n
    exact le_of_mul_le_mul_right (le_trans b1 (mul_le_mul_of_nonneg_left hl (by omega))) (by omega : 0 < w)

/-- What `getMaxAndkeepRatio` leads to: nothing changes, or one side is as asked for, the other follows, and the picture does not turn from
landscape to portrait. -/
theorem max_gives {p q : Int} (hp : 0 ≤ p) (hq : 0 ≤ q) {R : Int × Int}
    (e : R = resizeSize w h (getMaxAndkeepRatio w h p q).1 (getMaxAndkeepRatio w h p q).2) :
    R = (w, h) ∨ ((1 ≤ R.1 ∧ 1 ≤ R.2) ∧ (p ≠ 0 ∧ q ≠ 0 ∧ p < w ∧ q < h) ∧ ((h ≤ w → R.2 ≤ R.1) ∧ (w ≤ h → R.1 ≤ R.2)) ∧
      ((R.1 = p ∧ ∀ m, 1 ≤ m → p * h ≤ m * w → R.2 ≤ m) ∨ (R.2 = q ∧ ∀ m, 1 ≤ m → q * w ≤ m * h → R.1 ≤ m))) := by
  unfold getMaxAndkeepRatio at e
  simp only at e
  by_cases hp0 : p = 0
  · rw [if_pos hp0, if_pos (.inl (le_refl _)), resize_self hw hh] at e
    exact .inl e
  by_cases hq0 : q = 0
  · rw [if_pos hq0, if_pos (.inr (le_refl _)), resize_self hw hh] at e
    exact .inl e
  rw [if_neg hp0, if_neg hq0] at e
  by_cases hc : w ≤ p ∨ h ≤ q
  · rw [if_pos hc, resize_self hw hh] at e
    exact .inl e
  rw [if_neg hc, if_pos (by omega)] at e
  right
  split at e
  · obtain ⟨a, b, c, d, f⟩ := by_width hw hw' hh hh' (n := p) (by omega) (by omega) e
    exact ⟨⟨by omega, b⟩, ⟨hp0, hq0, by omega, by omega⟩, ⟨fun hl => by have := d hl; omega, fun hl => by have := c hl; omega⟩, .inl ⟨a, f⟩⟩
  · obtain ⟨a, b, c, d, f⟩ := by_height hw hw' hh hh' (n := q) (by omega) (by omega) e
    exact ⟨⟨b, by omega⟩, ⟨hp0, hq0, by omega, by omega⟩, ⟨fun hl => by have := c hl; omega, fun hl => by have := d hl; omega⟩, .inr ⟨a, f⟩⟩

/-- The same for `getMinAndkeepRatio`. -/
theorem min_gives {p q : Int} (hp : 0 ≤ p) (hq : 0 ≤ q) {R : Int × Int}
    (e : R = resizeSize w h (getMinAndkeepRatio w h p q).1 (getMinAndkeepRatio w h p q).2) :
    R = (w, h) ∨ ((1 ≤ R.1 ∧ 1 ≤ R.2) ∧ ((h ≤ w → R.2 ≤ R.1) ∧ (w ≤ h → R.1 ≤ R.2)) ∧ ((p ≠ 0 ∧ R.1 = p) ∨ (q ≠ 0 ∧ R.2 = q))) := by
  unfold getMinAndkeepRatio at e
  simp only at e
  have W : ∀ n, 1 ≤ n → n ≤ w → R = resizeSize w h n (toInt (div (ofInt n) (div (ofInt w) (ofInt h)))) → n = p → p ≠ 0 →
      R = (w, h) ∨ ((1 ≤ R.1 ∧ 1 ≤ R.2) ∧ ((h ≤ w → R.2 ≤ R.1) ∧ (w ≤ h → R.1 ≤ R.2)) ∧ ((p ≠ 0 ∧ R.1 = p) ∨ (q ≠ 0 ∧ R.2 = q))) := by
    intro n n1 n2 e he h0
    obtain ⟨a, b, c, d, f⟩ := by_width hw hw' hh hh' n1 n2 e
    exact .inr ⟨⟨by omega, b⟩, ⟨fun hl => by have := d hl; omega, fun hl => by have := c hl; omega⟩, .inl ⟨h0, by omega⟩⟩
  have H : ∀ n, 1 ≤ n → n ≤ h → R = resizeSize w h (toInt (mul (ofInt n) (div (ofInt w) (ofInt h)))) n → n = q → q ≠ 0 →
      R = (w, h) ∨ ((1 ≤ R.1 ∧ 1 ≤ R.2) ∧ ((h ≤ w → R.2 ≤ R.1) ∧ (w ≤ h → R.1 ≤ R.2)) ∧ ((p ≠ 0 ∧ R.1 = p) ∨ (q ≠ 0 ∧ R.2 = q))) := by
    intro n n1 n2 e he h0
    obtain ⟨a, b, c, d, f⟩ := by_height hw hw' hh hh' n1 n2 e
    exact .inr ⟨⟨b, by omega⟩, ⟨fun hl => by have := c hl; omega, fun hl => by have := d hl; omega⟩, .inr ⟨h0, by omega⟩⟩
  by_cases hp0 : p = 0
  · by_cases hq0 : q = 0
    · rw [if_pos hp0, if_pos hq0, if_pos ⟨le_refl _, le_refl _⟩, resize_self hw hh] at e
      exact .inl e
    · rw [if_pos hp0, if_neg hq0] at e
      by_cases hc : h ≤ q
      · rw [if_pos ⟨le_refl _, hc⟩, resize_self hw hh] at e
        exact .inl e
      · rw [if_neg (by omega), if_neg (by omega), if_pos (le_refl _)] at e
        exact H q (by omega) (by omega) e rfl hq0
  · by_cases hq0 : q = 0
    · rw [if_neg hp0, if_pos hq0] at e
      by_cases hc : w ≤ p
      · rw [if_pos ⟨hc, le_refl _⟩, resize_self hw hh] at e
        exact .inl e
      · rw [if_neg (by omega), if_neg (by omega), if_neg hc] at e
        exact W p (by omega) (by omega) e rfl hp0
    · rw [if_neg hp0, if_neg hq0] at e
      by_cases hc : w ≤ p ∧ h ≤ q
      · rw [if_pos hc, resize_self hw hh] at e
        exact .inl e
      rw [if_neg hc] at e
      by_cases hc2 : p < w ∧ q < h
      · rw [if_pos hc2] at e
        split at e
        · exact H q (by omega) (by omega) e rfl hq0
        · exact W p (by omega) (by omega) e rfl hp0
      · rw [if_neg hc2] at e
        split at e
        · exact H q (by omega) (by omega) e rfl hq0
        · exact W p (by omega) (by omega) e rfl hp0

end

theorem max_same {a b p q : Int} (h : p = 0 ∨ q = 0 ∨ a ≤ p ∨ b ≤ q) : getMaxAndkeepRatio a b p q = (a, b) := by
  unfold getMaxAndkeepRatio
  simp only
  rw [if_pos]
  by_cases hp : p = 0 <;> by_cases hq : q = 0 <;> simp only [hp, hq, if_true, if_false] <;> omega

theorem min_same {a b p q : Int} (h1 : p = 0 ∨ a ≤ p) (h2 : q = 0 ∨ b ≤ q) : getMinAndkeepRatio a b p q = (a, b) := by
  unfold getMinAndkeepRatio
  simp only
  rw [if_pos]
  by_cases hp : p = 0 <;> by_cases hq : q = 0 <;> simp only [hp, hq, if_true, if_false] <;> omega

/-- The box of modes 3 and 4: a side that is 0 is like the other one. -/
def fillBox (p q : Int) : Int × Int := if p = 0 then (q, q) else if q = 0 then (p, p) else (p, q)

theorem fillBox_pos {p q : Int} (hp : 0 ≤ p) (hq : 0 ≤ q) (h : 0 < p ∨ 0 < q) : 0 < (fillBox p q).1 ∧ 0 < (fillBox p q).2 := by
  unfold fillBox; split
  · simp only; omega
  · split <;> simp only <;> omega

theorem fillBox_swap (p q : Int) : fillBox q p = ((fillBox p q).2, (fillBox p q).1) := by
  unfold fillBox
  by_cases hp : p = 0 <;> by_cases hq : q = 0 <;> simp [hp, hq]

/-- The mode's box, for modes 0, 2, 3, 4 and 5 (both sides given in mode 2): in portrait the sides are exchanged, except in mode 3. -/
theorem mode0_eq (w h pw ph : Int) : praseMode 0 w h pw ph =
    if w < (newSide4mode w h pw ph).1 ∧ h < (newSide4mode w h pw ph).2 then (w, h, .scale)
    else ((getMinAndkeepRatio w h (newSide4mode w h pw ph).1 (newSide4mode w h pw ph).2).1, (getMinAndkeepRatio w h (newSide4mode w h pw ph).1 (newSide4mode w h pw ph).2).2, .scale) := by
  unfold praseMode; simp

theorem mode1_eq (w h pw ph : Int) : praseMode 1 w h pw ph =
    if w < (newSide4mode w h pw ph).1 ∧ h < (newSide4mode w h pw ph).2 then (w, h, .scale)
    else ((getSideByThubnail w h pw ph).1, (getSideByThubnail w h pw ph).2, .thumbnail) := by
  unfold praseMode; simp

theorem mode2_eq (w h pw ph : Int) : praseMode 2 w h pw ph =
    if w < (newSide4mode w h pw ph).1 ∧ h < (newSide4mode w h pw ph).2 then (w, h, .scale)
    else if pw = 0 then ((getMaxAndkeepRatio w h (toInt (div (mul (ofInt ph) (ofInt w)) (ofInt h))) ph).1, (getMaxAndkeepRatio w h (toInt (div (mul (ofInt ph) (ofInt w)) (ofInt h))) ph).2, .scale)
    else if ph = 0 then ((getMaxAndkeepRatio w h pw (toInt (mul (div (ofInt pw) (ofInt w)) (ofInt h)))).1, (getMaxAndkeepRatio w h pw (toInt (mul (div (ofInt pw) (ofInt w)) (ofInt h)))).2, .scale)
    else ((getMaxAndkeepRatio w h (newSide4mode w h pw ph).1 (newSide4mode w h pw ph).2).1, (getMaxAndkeepRatio w h (newSide4mode w h pw ph).1 (newSide4mode w h pw ph).2).2, .scale) := by
  unfold praseMode
  by_cases h1 : pw = 0 <;> by_cases h2 : ph = 0 <;> simp [h1, h2]

theorem mode3_eq (w h pw ph : Int) : praseMode 3 w h pw ph =
    if w < (newSide4mode w h pw ph).1 ∧ h < (newSide4mode w h pw ph).2 then (w, h, .scale)
    else ((getMaxAndkeepRatio w h (fillBox pw ph).1 (fillBox pw ph).2).1, (getMaxAndkeepRatio w h (fillBox pw ph).1 (fillBox pw ph).2).2, .scale) := by
  unfold praseMode fillBox; simp

theorem mode4_eq (w h pw ph : Int) : praseMode 4 w h pw ph =
    if w < (newSide4mode w h pw ph).1 ∧ h < (newSide4mode w h pw ph).2 then (w, h, .scale)
    else ((getMaxAndkeepRatio w h (fillBox (newSide4mode w h pw ph).1 (newSide4mode w h pw ph).2).1 (fillBox (newSide4mode w h pw ph).1 (newSide4mode w h pw ph).2).2).1,
      (getMaxAndkeepRatio w h (fillBox (newSide4mode w h pw ph).1 (newSide4mode w h pw ph).2).1 (fillBox (newSide4mode w h pw ph).1 (newSide4mode w h pw ph).2).2).2, .scale) := by
  unfold praseMode fillBox; simp

theorem mode5_eq (w h pw ph : Int) : praseMode 5 w h pw ph =
    if w < (newSide4mode w h pw ph).1 ∧ h < (newSide4mode w h pw ph).2 then (w, h, .scale)
    else ((getSideByThubnail w h (newSide4mode w h pw ph).1 (newSide4mode w h pw ph).2).1, (getSideByThubnail w h (newSide4mode w h pw ph).1 (newSide4mode w h pw ph).2).2, .thumbnail) := by
  unfold praseMode; simp

theorem other_eq {mode : Int} (h0 : mode ≠ 0) (h1 : mode ≠ 1) (h2 : mode ≠ 2) (h3 : mode ≠ 3) (h4 : mode ≠ 4) (h5 : mode ≠ 5) (w h pw ph : Int) :
    praseMode mode w h pw ph = (w, h, .scale) := by
  unfold praseMode; simp [h0, h1, h2, h3, h4, h5]

/-- The guard, or what the mode computes. -/
theorem size_scale {mode w h pw ph : Int} {g : Prop} [Decidable g] {a b : Int} (hw : 1 ≤ w) (hh : 1 ≤ h) (hpos : 0 < pw ∨ 0 < ph)
    (e : praseMode mode w h pw ph = if g then (w, h, .scale) else (a, b, .scale)) :
    modeSize mode w h pw ph = if g then (w, h) else resizeSize w h a b := by
  rw [modeSize_eq, if_pos hpos, e]
  by_cases hg : g
  · simp only [if_pos hg]
    exact resize_self hw hh
  · simp only [if_neg hg]

/-- The modes 3: nothing changes the second time. -/
theorem again3 {w h pw ph : Int} (hw : 1 ≤ w) (hw' : w ≤ 2 ^ 25) (hh : 1 ≤ h) (hh' : h ≤ 2 ^ 25) (h1 : 0 ≤ pw) (h2 : 0 ≤ ph) (hpos : 0 < pw ∨ 0 < ph) :
    modeSize 3 (modeSize 3 w h pw ph).1 (modeSize 3 w h pw ph).2 pw ph = modeSize 3 w h pw ph := by
  generalize e : modeSize 3 w h pw ph = X
  have e' := e
  rw [size_scale hw hh hpos (mode3_eq w h pw ph)] at e
  obtain ⟨p1, p2⟩ := fillBox_pos h1 h2 hpos
  have keep : X = (w, h) → modeSize 3 X.1 X.2 pw ph = X := fun hx => by subst hx; exact e'
  split at e
  · exact keep e.symm
  · rcases max_gives hw hw' hh hh' (by omega) (by omega) e.symm with hx | ⟨⟨x1, x2⟩, _, _, hx⟩
    · exact keep hx
    · rw [size_scale x1 x2 hpos (mode3_eq X.1 X.2 pw ph), max_same (by omega)]
      split
      · rfl
      · exact resize_self x1 x2

theorem again4 {w h pw ph : Int} (hw : 1 ≤ w) (hw' : w ≤ 2 ^ 25) (hh : 1 ≤ h) (hh' : h ≤ 2 ^ 25) (h1 : 0 ≤ pw) (h2 : 0 ≤ ph) (hpos : 0 < pw ∨ 0 < ph) :
    modeSize 4 (modeSize 4 w h pw ph).1 (modeSize 4 w h pw ph).2 pw ph = modeSize 4 w h pw ph := by
  generalize e : modeSize 4 w h pw ph = X
  have e' := e
  rw [size_scale hw hh hpos (mode4_eq w h pw ph)] at e
  obtain ⟨p1, p2⟩ := fillBox_pos h1 h2 hpos
  have keep : X = (w, h) → modeSize 4 X.1 X.2 pw ph = X := fun hx => by subst hx; exact e'
  have box : ∀ a b, fillBox (newSide4mode a b pw ph).1 (newSide4mode a b pw ph).2 =
      if b ≤ a then fillBox pw ph else ((fillBox pw ph).2, (fillBox pw ph).1) := by
    intro a b
    unfold newSide4mode
    split
    · rfl
    · exact fillBox_swap pw ph
  split at e
  · exact keep e.symm
  · rw [box] at e
    have hb : 0 ≤ (if h ≤ w then fillBox pw ph else ((fillBox pw ph).2, (fillBox pw ph).1)).1 ∧
        0 ≤ (if h ≤ w then fillBox pw ph else ((fillBox pw ph).2, (fillBox pw ph).1)).2 := by
      split
      · omega
      · simp only; omega
    rcases max_gives hw hw' hh hh' hb.1 hb.2 e.symm with hx | ⟨⟨x1, x2⟩, _, hor, hx⟩
    · exact keep hx
    · rw [size_scale x1 x2 hpos (mode4_eq X.1 X.2 pw ph), box, max_same]
      · split
        · rfl
        · exact resize_self x1 x2
      · generalize fillBox pw ph = f at *
        by_cases hl : h ≤ w
        · have := hor.1 hl
          rw [if_pos this]
          rw [if_pos hl] at hx
          omega
        · have := hor.2 (by omega)
          rw [if_neg hl] at hx
          simp only at hx
          split
          · omega
          · simp only; omega

theorem again2 {w h pw ph : Int} (hw : 1 ≤ w) (hw' : w ≤ 2 ^ 25) (hh : 1 ≤ h) (hh' : h ≤ 2 ^ 25) (h1 : 0 ≤ pw) (h2 : 0 ≤ ph) (hpos : 0 < pw ∨ 0 < ph) :
    modeSize 2 (modeSize 2 w h pw ph).1 (modeSize 2 w h pw ph).2 pw ph = modeSize 2 w h pw ph := by
  generalize e : modeSize 2 w h pw ph = X
  have e' := e
  have keep : X = (w, h) → modeSize 2 X.1 X.2 pw ph = X := fun hx => by subst hx; exact e'
  by_cases hp0 : pw = 0
  · have hq0 : 0 < ph := by omega
    have m2 : ∀ a b, praseMode 2 a b pw ph = if a < (newSide4mode a b pw ph).1 ∧ b < (newSide4mode a b pw ph).2 then (a, b, .scale)
        else ((getMaxAndkeepRatio a b (toInt (div (mul (ofInt ph) (ofInt a)) (ofInt b))) ph).1, (getMaxAndkeepRatio a b (toInt (div (mul (ofInt ph) (ofInt a)) (ofInt b))) ph).2, .scale) := by
      intro a b
      rw [mode2_eq, if_pos hp0]
    rw [size_scale hw hh hpos (m2 w h)] at e
    split at e
    · exact keep e.symm
    · by_cases hph : h ≤ ph
      · rw [max_same (by omega), resize_self hw hh] at e
        exact keep e.symm
      have n0 : 0 ≤ div (mul (ofInt ph) (ofInt w)) (ofInt h) := by
        unfold div mul
        apply rnd_nonneg
        apply div_nonneg
        · apply rnd_nonneg
          exact mul_nonneg (rnd_nonneg (by exact_mod_cast h2)) (rnd_nonneg (by exact_mod_cast (by omega : (0 : Int) ≤ w)))
        · exact rnd_nonneg (by exact_mod_cast (by omega : (0 : Int) ≤ h))
      obtain ⟨l, u⟩ := auto_near hw (by omega) hh (by omega) (n := ph) (by omega) (by omega)
      have br := (floor_bracket n0 h2 hw hh (prod_le h2 (by omega) (by omega) hw') l u).1
      rcases max_gives hw hw' hh hh' (toInt_nonneg n0) h2 e.symm with hx | ⟨⟨x1, x2⟩, _, _, hx⟩
      · exact keep hx
      · have : X.2 ≤ ph := by
          rcases hx with hx | hx
          · exact hx.2 ph (by omega) br
          · omega
        rw [size_scale x1 x2 hpos (m2 X.1 X.2), max_same (by omega)]
        split
        · rfl
        · exact resize_self x1 x2
  by_cases hq0 : ph = 0
  · have m2 : ∀ a b, praseMode 2 a b pw ph = if a < (newSide4mode a b pw ph).1 ∧ b < (newSide4mode a b pw ph).2 then (a, b, .scale)
        else ((getMaxAndkeepRatio a b pw (toInt (mul (div (ofInt pw) (ofInt a)) (ofInt b)))).1, (getMaxAndkeepRatio a b pw (toInt (mul (div (ofInt pw) (ofInt a)) (ofInt b)))).2, .scale) := by
      intro a b
      rw [mode2_eq, if_neg hp0, if_pos hq0]
    rw [size_scale hw hh hpos (m2 w h)] at e
    split at e
    · exact keep e.symm
    · by_cases hph : w ≤ pw
      · rw [max_same (by omega), resize_self hw hh] at e
        exact keep e.symm
      have ec : mul (div (ofInt pw) (ofInt w)) (ofInt h) = mul (ofInt h) (div (ofInt pw) (ofInt w)) := by unfold mul; rw [mul_comm]
      have near := mulr_near (n := h) (w := pw) (h := w) (by omega) (by omega) (by omega) (by omega) hw (by omega)
      have br := (mulr_bracket (w := pw) (h := w) (n := h) (by omega) (by omega) hw hw' (by omega) hh').1
      rw [← ec] at near br
      rcases max_gives hw hw' hh hh' h1 (toInt_nonneg near.1) e.symm with hx | ⟨⟨x1, x2⟩, _, _, hx⟩
      · exact keep hx
      · have : X.1 ≤ pw := by
          rcases hx with hx | hx
          · omega
          · exact hx.2 pw (by omega) (by rw [mul_comm pw h]; exact br)
        rw [size_scale x1 x2 hpos (m2 X.1 X.2), max_same (by omega)]
        split
        · rfl
        · exact resize_self x1 x2
  · have m2 : ∀ a b, praseMode 2 a b pw ph = if a < (newSide4mode a b pw ph).1 ∧ b < (newSide4mode a b pw ph).2 then (a, b, .scale)
        else ((getMaxAndkeepRatio a b (newSide4mode a b pw ph).1 (newSide4mode a b pw ph).2).1, (getMaxAndkeepRatio a b (newSide4mode a b pw ph).1 (newSide4mode a b pw ph).2).2, .scale) := by
      intro a b
      rw [mode2_eq, if_neg hp0, if_neg hq0]
    rw [size_scale hw hh hpos (m2 w h)] at e
    split at e
    · exact keep e.symm
    · have hb : 0 ≤ (newSide4mode w h pw ph).1 ∧ 0 ≤ (newSide4mode w h pw ph).2 := by
        unfold newSide4mode; split <;> exact ⟨by assumption, by assumption⟩
      rcases max_gives hw hw' hh hh' hb.1 hb.2 e.symm with hx | ⟨⟨x1, x2⟩, _, hor, hx⟩
      · exact keep hx
      · rw [size_scale x1 x2 hpos (m2 X.1 X.2), max_same]
        · split
          · rfl
          · exact resize_self x1 x2
        · unfold newSide4mode at *
          by_cases hl : h ≤ w
          · have := hor.1 hl
            rw [if_pos this]
            rw [if_pos hl] at hx
            simp only at hx ⊢
            omega
          · have := hor.2 (by omega)
            rw [if_neg hl] at hx
            simp only at hx
            split <;> simp only <;> omega

/-! ## Modes 1 and 5 -/

/-- The size of the thumbnail. -/
def thumb (w h p q : Int) : Int × Int :=
  if p = 0 then (min h q, min h q) else if q = 0 then (min w p, min w p) else (min w p, min h q)

theorem thumb_eq {w h p q : Int} (hw : 1 ≤ w) (hh : 1 ≤ h) (h1 : 0 ≤ p) (h2 : 0 ≤ q) (hpos : 0 < p ∨ 0 < q) :
    fillSize w h (getSideByThubnail w h p q).1 (getSideByThubnail w h p q).2 = thumb w h p q := by
  have key : getSideByThubnail w h p q = thumb w h p q := by
    unfold getSideByThubnail thumb
    simp only
    have m1 : (if p < w then p else w) = min w p := by split <;> omega
    have m2 : (if q < h then q else h) = min h q := by split <;> omega
    rw [m1, m2]
    by_cases hp : p = 0
    · rw [if_pos (by omega : min w p = 0), if_pos hp, if_neg (by omega)]
    · rw [if_neg (by omega : ¬ min w p = 0), if_neg hp]
      by_cases hq : q = 0
      · rw [if_pos (by omega : min h q = 0), if_pos hq]
      · rw [if_neg (by omega : ¬ min h q = 0), if_neg hq]
  rw [key]
  unfold fillSize
  have : 1 ≤ (thumb w h p q).1 ∧ 1 ≤ (thumb w h p q).2 := by
    unfold thumb
    split
    · simp only; omega
    · split <;> simp only <;> omega
  rw [if_neg (by omega), if_neg (by omega)]

theorem size_thumb {mode w h pw ph : Int} {g : Prop} [Decidable g] {a b : Int} (hw : 1 ≤ w) (hh : 1 ≤ h) (hpos : 0 < pw ∨ 0 < ph)
    (e : praseMode mode w h pw ph = if g then (w, h, .scale) else (a, b, .thumbnail)) :
    modeSize mode w h pw ph = if g then (w, h) else fillSize w h a b := by
  rw [modeSize_eq, if_pos hpos, e]
  by_cases hg : g
  · simp only [if_pos hg]
    exact resize_self hw hh
  · simp only [if_neg hg]

theorem size1 {w h pw ph : Int} (hw : 1 ≤ w) (hh : 1 ≤ h) (h1 : 0 ≤ pw) (h2 : 0 ≤ ph) (hpos : 0 < pw ∨ 0 < ph) :
    modeSize 1 w h pw ph = if w < (newSide4mode w h pw ph).1 ∧ h < (newSide4mode w h pw ph).2 then (w, h) else thumb w h pw ph := by
  rw [size_thumb hw hh hpos (mode1_eq w h pw ph), thumb_eq hw hh h1 h2 hpos]

theorem size5 {w h pw ph : Int} (hw : 1 ≤ w) (hh : 1 ≤ h) (h1 : 0 ≤ pw) (h2 : 0 ≤ ph) (hpos : 0 < pw ∨ 0 < ph) :
    modeSize 5 w h pw ph = if h ≤ w then thumb w h pw ph else thumb w h ph pw := by
  rw [size_thumb hw hh hpos (mode5_eq w h pw ph)]
  unfold newSide4mode
  by_cases hl : h ≤ w
  · simp only [if_pos hl]
    split
    · unfold thumb
      rw [if_neg (by omega), if_neg (by omega)]
      congr 1 <;> omega
    · exact thumb_eq hw hh h1 h2 hpos
  · simp only [if_neg hl]
    split
    · unfold thumb
      rw [if_neg (by omega), if_neg (by omega)]
      congr 1 <;> omega
    · exact thumb_eq hw hh h2 h1 hpos.symm

theorem again1 {w h pw ph : Int} (hw : 1 ≤ w) (hh : 1 ≤ h) (h1 : 0 ≤ pw) (h2 : 0 ≤ ph) (hpos : 0 < pw ∨ 0 < ph) :
    modeSize 1 (modeSize 1 w h pw ph).1 (modeSize 1 w h pw ph).2 pw ph = modeSize 1 w h pw ph := by
  generalize e : modeSize 1 w h pw ph = X
  have e' := e
  rw [size1 hw hh h1 h2 hpos] at e
  split at e
  · subst e; exact e'
  · have hx : 1 ≤ X.1 ∧ 1 ≤ X.2 := by
      subst e
      unfold thumb
      split
      · simp only; omega
      · split <;> simp only <;> omega
    rw [size1 hx.1 hx.2 h1 h2 hpos]
    split
    · rfl
    · subst e
      unfold thumb
      by_cases hp : pw = 0
      · simp only [if_pos hp]
        congr 1 <;> omega
      · by_cases hq : ph = 0
        · simp only [if_neg hp, if_pos hq]
          congr 1 <;> omega
        · simp only [if_neg hp, if_neg hq]
          congr 1 <;> omega

theorem thumb_pos1 {w h p q : Int} (hw : 1 ≤ w) (hh : 1 ≤ h) (h1 : 0 ≤ p) (h2 : 0 ≤ q) (hpos : 0 < p ∨ 0 < q) :
    1 ≤ (thumb w h p q).1 ∧ 1 ≤ (thumb w h p q).2 := by
  unfold thumb
  split
  · simp only; omega
  · split <;> simp only <;> omega

theorem pos5 {w h pw ph : Int} (hw : 1 ≤ w) (hh : 1 ≤ h) (h1 : 0 ≤ pw) (h2 : 0 ≤ ph) (hpos : 0 < pw ∨ 0 < ph) :
    1 ≤ (modeSize 5 w h pw ph).1 ∧ 1 ≤ (modeSize 5 w h pw ph).2 := by
  rw [size5 hw hh h1 h2 hpos]
  split
  · exact thumb_pos1 hw hh h1 h2 hpos
  · exact thumb_pos1 hw hh h2 h1 hpos.symm

theorem again5 {w h pw ph : Int} (hw : 1 ≤ w) (hh : 1 ≤ h) (h1 : 0 ≤ pw) (h2 : 0 ≤ ph) (hpos : 0 < pw ∨ 0 < ph) (hc : pw = 0 ∨ ph ≤ pw) :
    modeSize 5 (modeSize 5 w h pw ph).1 (modeSize 5 w h pw ph).2 pw ph = modeSize 5 w h pw ph := by
  obtain ⟨x1, x2⟩ := pos5 hw hh h1 h2 hpos
  rw [size5 x1 x2 h1 h2 hpos, size5 hw hh h1 h2 hpos]
  unfold thumb
  by_cases hp : pw = 0 <;> by_cases hq : ph = 0 <;> by_cases hl : h ≤ w <;> simp only [hp, hq, hl, if_true, if_false] <;>
    (split <;> (congr 1 <;> omega))

theorem again5' {w h pw ph : Int} (hw : 1 ≤ w) (hh : 1 ≤ h) (h1 : 0 ≤ pw) (h2 : 0 ≤ ph) (hpos : 0 < pw ∨ 0 < ph) {X : Int × Int}
    (e : modeSize 5 (modeSize 5 w h pw ph).1 (modeSize 5 w h pw ph).2 pw ph = X) :
    modeSize 5 X.1 X.2 pw ph = X := by
  by_cases hc : pw = 0 ∨ ph ≤ pw
  · have a := again5 hw hh h1 h2 hpos hc
    rw [e] at a
    rw [← a] at e
    exact e
  · obtain ⟨x1, x2⟩ := pos5 hw hh h1 h2 hpos
    obtain ⟨y1, y2⟩ := pos5 x1 x2 h1 h2 hpos
    rw [e] at y1 y2
    rw [size5 y1 y2 h1 h2 hpos]
    rw [size5 x1 x2 h1 h2 hpos, size5 hw hh h1 h2 hpos] at e
    subst e
    have hp : pw ≠ 0 := by omega
    have hq : ph ≠ 0 := by omega
    unfold thumb
    simp only [hp, hq, if_false]
    by_cases hl : h ≤ w
    · simp only [hl, if_true]
      split
      · split <;> (congr 1 <;> omega)
      · simp only
        split <;> (congr 1 <;> omega)
    · simp only [hl, if_false]
      split
      · split <;> (congr 1 <;> omega)
      · simp only
        split <;> (congr 1 <;> omega)

end Gofer.ImageAgain
