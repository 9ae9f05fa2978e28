import Verif.Proof.ImageSize

/-! # Modes, GIF canvases, one side given, icons and cropping in `image` -/
namespace Gofer.Image
open Gofer F64

theorem toInt_mono {p q : ℚ} (h0 : 0 ≤ p) (h : p ≤ q) : toInt p ≤ toInt q :=
  le_toInt (le_trans (toInt_near h0).1 h) (le_trans h0 h)

/-! ## Modes -/

theorem modeSize_eq (mode w h width height : Int) : modeSize mode w h width height =
    if 0 < width ∨ 0 < height then
      match praseMode mode w h width height with
      | (nw, nh, .scale) => resizeSize w h nw nh
      | (nw, nh, .thumbnail) => fillSize w h nw nh
    else (w, h) := rfl

theorem resize_self {w h : Int} (hw : 1 ≤ w) (hh : 1 ≤ h) : resizeSize w h w h = (w, h) := by
  rw [resizeSize_eq, if_neg (by omega), if_neg (by omega), if_neg (by omega), if_neg (by omega), if_neg (by omega)]

/-- The modes that scale: a condition on what the two functions compute is a condition on the result. -/
theorem mode_scale {w h pw ph : Int} (P : Int × Int → Prop) (hw : 1 ≤ w) (hh : 1 ≤ h) (self : P (w, h)) (h1 : 0 ≤ pw) (h2 : 0 ≤ ph)
    (hb1 : pw ≤ 2 ^ 31) (hb2 : ph ≤ 2 ^ 31) (hw' : w ≤ 2 ^ 31) (hh' : h ≤ 2 ^ 31)
    (hmin : ∀ a b, 0 ≤ a → 0 ≤ b → P (resizeSize w h (getMinAndkeepRatio w h a b).1 (getMinAndkeepRatio w h a b).2))
    (hmax : ∀ a b, 0 ≤ a → 0 ≤ b → P (resizeSize w h (getMaxAndkeepRatio w h a b).1 (getMaxAndkeepRatio w h a b).2))
    {mode : Int} (hm : mode ≠ 1 ∧ mode ≠ 5) : P (modeSize mode w h pw ph) := by
  have self' : P (resizeSize w h w h) := by rw [resize_self hw hh]; exact self
  have ns : 0 ≤ (newSide4mode w h pw ph).1 ∧ 0 ≤ (newSide4mode w h pw ph).2 := by unfold newSide4mode; split <;> exact ⟨by assumption, by assumption⟩
  rw [modeSize_eq]
  split
  · unfold praseMode
    generalize newSide4mode w h pw ph = n at *
    obtain ⟨nw, nh⟩ := n
    simp only at ns ⊢
    by_cases hs : w < nw ∧ h < nh
    · rw [if_pos hs]; exact self'
    rw [if_neg hs]
    by_cases m0 : mode = 0
    · rw [if_pos m0]; exact hmin _ _ ns.1 ns.2
    rw [if_neg m0, if_neg hm.1]
    by_cases m2 : mode = 2
    · rw [if_pos m2]
      simp only
      split
      · refine hmax _ _ ?_ h2
        apply toInt_nonneg
        have w0 : (0 : ℚ) ≤ ofInt w := rnd_nonneg (by exact_mod_cast (by omega : 0 ≤ w))
        have k0 : (0 : ℚ) ≤ ofInt h := rnd_nonneg (by exact_mod_cast (by omega : 0 ≤ h))
        have p0 : (0 : ℚ) ≤ ofInt ph := rnd_nonneg (by exact_mod_cast h2)
        exact rnd_nonneg (div_nonneg (rnd_nonneg (mul_nonneg p0 w0)) k0)
      · split
        · refine hmax _ _ h1 ?_
          apply toInt_nonneg
          have w0 : (0 : ℚ) ≤ ofInt w := rnd_nonneg (by exact_mod_cast (by omega : 0 ≤ w))
          have k0 : (0 : ℚ) ≤ ofInt h := rnd_nonneg (by exact_mod_cast (by omega : 0 ≤ h))
          have p0 : (0 : ℚ) ≤ ofInt pw := rnd_nonneg (by exact_mod_cast h1)
          exact rnd_nonneg (mul_nonneg (rnd_nonneg (div_nonneg p0 w0)) k0)
        · exact hmax _ _ ns.1 ns.2
    rw [if_neg m2]
    by_cases m3 : mode = 3
    · rw [if_pos m3]
      simp only
      split
      · exact hmax _ _ h2 h2
      · split
        · exact hmax _ _ h1 h1
        · exact hmax _ _ h1 h2
    rw [if_neg m3]
    by_cases m4 : mode = 4
    · rw [if_pos m4]
      simp only
      split
      · exact hmax _ _ ns.2 ns.2
      · split
        · exact hmax _ _ ns.1 ns.1
        · exact hmax _ _ ns.1 ns.2
    rw [if_neg m4, if_neg hm.2]
    exact self'
  · exact self

/-- The modes that scale never enlarge, whatever is asked. -/
theorem mode_le {w h : Int} (hw : 1 ≤ w) (hw' : w ≤ 2 ^ 31) (hh : 1 ≤ h) (hh' : h ≤ 2 ^ 31) (pw ph : Int) {mode : Int} (hm : mode ≠ 1 ∧ mode ≠ 5) :
    (modeSize mode w h pw ph).1 ≤ w ∧ (modeSize mode w h pw ph).2 ≤ h := by
  have hmin : ∀ a b, (resizeSize w h (getMinAndkeepRatio w h a b).1 (getMinAndkeepRatio w h a b).2).1 ≤ w ∧ (resizeSize w h (getMinAndkeepRatio w h a b).1 (getMinAndkeepRatio w h a b).2).2 ≤ h :=
    fun a b => resize_le hw hw' hh hh' (min_le hw hw' hh hh' a b).1 (min_le hw hw' hh hh' a b).2
  have hmax : ∀ a b, (resizeSize w h (getMaxAndkeepRatio w h a b).1 (getMaxAndkeepRatio w h a b).2).1 ≤ w ∧ (resizeSize w h (getMaxAndkeepRatio w h a b).1 (getMaxAndkeepRatio w h a b).2).2 ≤ h :=
    fun a b => resize_le hw hw' hh hh' (max_le hw hw' hh hh' a b).1 (max_le hw hw' hh hh' a b).2
  have self : (resizeSize w h w h).1 ≤ w ∧ (resizeSize w h w h).2 ≤ h := by rw [resize_self hw hh]; exact ⟨le_refl _, le_refl _⟩
  rw [modeSize_eq]
  split
  · unfold praseMode
    generalize newSide4mode w h pw ph = n
    obtain ⟨nw, nh⟩ := n
    simp only
    by_cases hs : w < nw ∧ h < nh
    · rw [if_pos hs]; exact self
    rw [if_neg hs]
    by_cases m0 : mode = 0
    · rw [if_pos m0]; exact hmin _ _
    rw [if_neg m0, if_neg hm.1]
    by_cases m2 : mode = 2
    · rw [if_pos m2]
      simp only
      split
      · exact hmax _ _
      · split <;> exact hmax _ _
    rw [if_neg m2]
    by_cases m3 : mode = 3
    · rw [if_pos m3]
      simp only
      split
      · exact hmax _ _
      · split <;> exact hmax _ _
    rw [if_neg m3]
    by_cases m4 : mode = 4
    · rw [if_pos m4]
      simp only
      split
      · exact hmax _ _
      · split <;> exact hmax _ _
    rw [if_neg m4, if_neg hm.2]
    exact self
  · exact ⟨le_refl _, le_refl _⟩

theorem thumb_le {w h pw ph : Int} (hw : 1 ≤ w) (hh : 1 ≤ h) (h1 : pw ≠ 0) (h2 : ph ≠ 0) :
    (fillSize w h (getSideByThubnail w h pw ph).1 (getSideByThubnail w h pw ph).2).1 ≤ w ∧ (fillSize w h (getSideByThubnail w h pw ph).1 (getSideByThubnail w h pw ph).2).2 ≤ h := by
  unfold getSideByThubnail fillSize
  simp only
  repeat' split
  all_goals first | omega | (simp only; omega)

theorem thumb_pos {w h pw ph : Int} (hw : 1 ≤ w) (hh : 1 ≤ h) (h1 : 0 ≤ pw) (h2 : 0 ≤ ph) (h3 : 0 < pw ∨ 0 < ph) :
    1 ≤ (fillSize w h (getSideByThubnail w h pw ph).1 (getSideByThubnail w h pw ph).2).1 ∧ 1 ≤ (fillSize w h (getSideByThubnail w h pw ph).1 (getSideByThubnail w h pw ph).2).2 := by
  unfold getSideByThubnail fillSize
  simp only
  repeat' split
  all_goals first | omega | (simp only; omega)

/-- The modes that cut a thumbnail. -/
theorem mode_thumb {w h pw ph : Int} (P : Int × Int → Prop) (hw : 1 ≤ w) (hh : 1 ≤ h) (self : P (w, h))
    (h1 : P (fillSize w h (getSideByThubnail w h pw ph).1 (getSideByThubnail w h pw ph).2))
    (h2 : P (fillSize w h (getSideByThubnail w h ph pw).1 (getSideByThubnail w h ph pw).2)) {mode : Int} (hm : mode = 1 ∨ mode = 5) :
    P (modeSize mode w h pw ph) := by
  have self' : P (resizeSize w h w h) := by rw [resize_self hw hh]; exact self
  rw [modeSize_eq]
  split
  · unfold praseMode
    have ns : newSide4mode w h pw ph = (pw, ph) ∨ newSide4mode w h pw ph = (ph, pw) := by unfold newSide4mode; split <;> simp
    have hf : P (fillSize w h (getSideByThubnail w h (newSide4mode w h pw ph).1 (newSide4mode w h pw ph).2).1 (getSideByThubnail w h (newSide4mode w h pw ph).1 (newSide4mode w h pw ph).2).2) := by
      rcases ns with e | e <;> rw [e]
      · exact h1
      · exact h2
    generalize newSide4mode w h pw ph = n at *
    obtain ⟨nw, nh⟩ := n
    simp only at hf ⊢
    by_cases hs : w < nw ∧ h < nh
    · rw [if_pos hs]; exact self'
    rw [if_neg hs]
    rcases hm with rfl | rfl
    · rw [if_neg (by decide), if_pos rfl]; exact h1
    · rw [if_neg (by decide), if_neg (by decide), if_neg (by decide), if_neg (by decide), if_neg (by decide), if_pos rfl]; exact hf
  · exact self

/-! ## One side given -/

section
variable {w h : Int} (hw : 1 ≤ w) (hw' : w ≤ 2 ^ 25) (hh : 1 ≤ h) (hh' : h ≤ 2 ^ 25)
include hw hw' hh hh'

theorem height_only {ph : Int} (h1 : 1 ≤ ph) (h2 : ph ≤ h) (hc : h ≤ ph * w) : (modeSize 2 w h 0 ph).2 = ph := by
  rw [modeSize_eq, if_pos (by omega)]
  have e : praseMode 2 w h 0 ph = ((getMaxAndkeepRatio w h (toInt (div (mul (ofInt ph) (ofInt w)) (ofInt h))) ph).1, (getMaxAndkeepRatio w h (toInt (div (mul (ofInt ph) (ofInt w)) (ofInt h))) ph).2, .scale) := by
    unfold praseMode newSide4mode
    by_cases hs : h ≤ w
    · simp only [if_pos hs]
      rw [if_neg (by omega)]; rfl
    · simp only [if_neg hs]
      rw [if_neg (by omega)]; rfl
  rw [e]
  simp only
  have hpw : ph * w ≤ 2 ^ 50 := prod_le (by omega) (by omega) (by omega) hw'
  have h0 : (0 : ℚ) < h := by exact_mod_cast (by omega : (0 : Int) < h)
  have w0 : (0 : ℚ) < w := by exact_mod_cast (by omega : (0 : Int) < w)
  have q0 : (0 : ℚ) ≤ div (mul (ofInt ph) (ofInt w)) (ofInt h) := by
    rw [ofInt_exact (by omega) (by omega), ofInt_exact (by omega) (by omega), ofInt_exact (by omega) (by omega)]
    have : (0 : ℚ) ≤ ph := by exact_mod_cast (by omega : (0 : Int) ≤ ph)
    exact rnd_nonneg (div_nonneg (rnd_nonneg (mul_nonneg this w0.le)) h0.le)
  have near := auto_near hw (by omega) hh (by omega) (n := ph) (by omega) (by omega)
  obtain ⟨b1, b2⟩ := floor_bracket q0 (by omega) hw hh hpw near.1 near.2
  have hn1 : 1 ≤ toInt (div (mul (ofInt ph) (ofInt w)) (ofInt h)) := by
    apply le_toInt _ q0
    rw [ofInt_exact (by omega) (by omega), ofInt_exact (by omega) (by omega), ofInt_exact (by omega) (by omega)]
    unfold div mul
    have e1 : rnd ((ph : ℚ) * w) = ((ph * w : Int) : ℚ) := by
      have := rnd_int (n := ph * w) (by nlinarith) (by omega)
      push_cast at this ⊢
      exact this
    rw [e1]
    apply le_rnd_int (by norm_num) (by norm_num)
    rw [le_div_iff₀ h0]
    exact_mod_cast (by omega : 1 * h ≤ ph * w)
  generalize toInt (div (mul (ofInt ph) (ofInt w)) (ofInt h)) = nw at *
  unfold getMaxAndkeepRatio
  simp only
  rw [if_neg (by omega : ¬ nw = 0), if_neg (by omega : ¬ ph = 0)]
  have hcmp : ¬ div (ofInt ph) (ofInt h) < div (ofInt nw) (ofInt w) := by
    have hnw : nw ≤ 2 ^ 50 := by nlinarith
    rw [not_lt, ofInt_exact (n := nw) (by omega) (by omega), ofInt_exact (n := w) (by omega) (by omega), ofInt_exact (n := ph) (by omega) (by omega), ofInt_exact (n := h) (by omega) (by omega)]
    apply rnd_mono
    rw [div_le_div_iff₀ w0 h0]
    exact_mod_cast b1
  by_cases hph : h = ph
  · rw [if_pos (by omega)]
    rw [resize_self hw hh]; exact hph
  have hnw : nw < w := by
    by_contra hcon
    have : w * h ≤ nw * h := by nlinarith
    have : ph * w < h * w := mul_lt_mul_of_pos_right (by omega) (by omega)
    nlinarith
  rw [if_neg (by omega), if_pos (by omega), if_neg hcmp]
  have t0 := mulr_nonneg hw (by omega) hh (by omega) (n := ph) (by omega) (by omega)
  generalize toInt (mul (ofInt ph) (div (ofInt w) (ofInt h))) = t at *
  rw [resizeSize_eq, if_neg (by omega), if_neg (by omega), if_neg (by omega)]
  split
  · rfl
  · rw [if_neg (by omega)]

theorem width_only {pw : Int} (h1 : 1 ≤ pw) (h2 : pw ≤ w) (hc : w < pw * h) :
    pw - 1 ≤ (modeSize 2 w h pw 0).1 ∧ (modeSize 2 w h pw 0).1 ≤ pw := by
  rw [modeSize_eq, if_pos (by omega)]
  have e : praseMode 2 w h pw 0 = ((getMaxAndkeepRatio w h pw (toInt (mul (div (ofInt pw) (ofInt w)) (ofInt h)))).1, (getMaxAndkeepRatio w h pw (toInt (mul (div (ofInt pw) (ofInt w)) (ofInt h)))).2, .scale) := by
    unfold praseMode newSide4mode
    have hp : pw ≠ 0 := by omega
    by_cases hs : h ≤ w
    · simp only [if_pos hs]
      rw [if_neg (by omega)]
      simp [hp]
    · simp only [if_neg hs]
      rw [if_neg (by omega)]
      simp [hp]
  rw [e]
  simp only
  have hpw : pw * h ≤ 2 ^ 50 := prod_le (by omega) (by omega) (by omega) hh'
  have h0 : (0 : ℚ) < h := by exact_mod_cast (by omega : (0 : Int) < h)
  have w0 : (0 : ℚ) < w := by exact_mod_cast (by omega : (0 : Int) < w)
  have p0 : (0 : ℚ) < pw := by exact_mod_cast (by omega : (0 : Int) < pw)
  have near := mulr_near (n := h) (w := pw) (h := w) (by omega) (by omega) h1 (by omega) hw (by omega)
  have ec : mul (div (ofInt pw) (ofInt w)) (ofInt h) = mul (ofInt h) (div (ofInt pw) (ofInt w)) := by unfold mul; rw [mul_comm]
  rw [ec]
  obtain ⟨b1, b2⟩ := floor_bracket near.1 (by omega) h1 hw (by rw [mul_comm]; exact hpw) near.2.1 near.2.2
  have n0 := toInt_nonneg near.1
  generalize toInt (mul (ofInt h) (div (ofInt pw) (ofInt w))) = nh at *
  have hn1 : 1 ≤ nh := by
    by_contra hcon
    have : nh = 0 := by omega
    subst this
    rw [mul_comm h pw] at b2
    omega
  unfold getMaxAndkeepRatio
  simp only
  rw [if_neg (by omega : ¬ nh = 0), if_neg (by omega : ¬ pw = 0)]
  by_cases hpeq : w = pw
  · rw [if_pos (by omega), resize_self hw hh]
    simp only; omega
  have hnh : nh < h := by
    by_contra hcon
    have : h * w ≤ nh * w := by nlinarith
    have : h * pw < h * w := mul_lt_mul_of_pos_left (by omega) (by omega)
    nlinarith
  rw [if_neg (by omega), if_pos (by omega)]
  split
  · have t0 := divr_nonneg hw (by omega) hh (by omega) (n := pw) (by omega) (by omega)
    generalize toInt (div (ofInt pw) (div (ofInt w) (ofInt h))) = t at *
    simp only
    rw [resizeSize_eq, if_neg (by omega), if_neg (by omega), if_neg (by omega), if_neg (by omega)]
    split <;> simp only <;> omega
  · rename_i hcmp
    have hge : pw * h ≤ nh * w := by
      rw [not_lt] at hcmp
      have r1 := (ratio_near h1 (by omega) hw (by omega)).2.1
      have r2 := (ratio_near hn1 (by omega) hh (by omega)).2.2
      generalize div (ofInt pw) (ofInt w) = x at *
      generalize div (ofInt nh) (ofInt h) = y at *
      have n0' : (0 : ℚ) < nh := by exact_mod_cast (by omega : (0 : Int) < nh)
      have hb : (pw : ℚ) * h * (1 - 1 / 2 ^ 53) ≤ nh * w * (1 + 1 / 2 ^ 53) := by
        calc (pw : ℚ) * h * (1 - 1 / 2 ^ 53) = pw * (1 - 1 / 2 ^ 53) * h := by ring
          _ ≤ x * w * h := mul_le_mul_of_nonneg_right r1 h0.le
          _ ≤ y * w * h := mul_le_mul_of_nonneg_right (mul_le_mul_of_nonneg_right hcmp w0.le) h0.le
          _ = y * h * w := by ring
          _ ≤ nh * (1 + 1 / 2 ^ 53) * w := mul_le_mul_of_nonneg_right r2 w0.le
          _ = _ := by ring
      have q1 : (pw : ℚ) * h ≤ 2 ^ 50 := by exact_mod_cast hpw
      have q2 : (nh : ℚ) * w ≤ 2 ^ 50 := by exact_mod_cast (prod_le (by omega) (by omega) (by omega) hw' : nh * w ≤ 2 ^ 50)
      have : (pw : ℚ) * h < nh * w + 1 := by norm_num at hb q1 q2 ⊢; linarith
      have : pw * h < nh * w + 1 := by exact_mod_cast this
      omega
    have t0 := mulr_nonneg hw (by omega) hh (by omega) (n := nh) (by omega) (by omega)
    obtain ⟨c1, c2⟩ := mulr_bracket hw hw' hh hh' (n := nh) (by omega) (by omega)
    generalize toInt (mul (ofInt nh) (div (ofInt w) (ofInt h))) = t at *
    have tl : t ≤ pw := by
      have : t * h ≤ pw * h := by rw [mul_comm pw h]; omega
      exact le_of_mul_le_mul_right this (by omega)
    have tg : pw ≤ t + 1 := by
      have : pw * h ≤ (t + 1) * h := by omega
      exact le_of_mul_le_mul_right this (by omega)
    simp only
    rw [resizeSize_eq, if_neg (by omega), if_neg (by omega), if_neg (by omega)]
    split
    · rename_i ht
      subst ht
      have := auto_le hw (by omega) hh (by omega) (n := nh) (m := 1) (by omega) (by omega) (by omega) (by norm_num) (by simpa using c2)
      have := autoSide_pos (div (mul (ofInt nh) (ofInt w)) (ofInt h))
      simp only; omega
    · rw [if_neg (by omega)]
      simp only; omega

end

/-! ## GIF -/

theorem gif_le {cw ch : Int} (hw : 1 ≤ cw) (hw' : cw ≤ 2 ^ 31) (hh : 1 ≤ ch) (hh' : ch ≤ 2 ^ 31) (tw th : Int) :
    (0 ≤ (gifSize cw ch tw th).1 ∧ (gifSize cw ch tw th).1 ≤ cw ∧ (0 < tw → (gifSize cw ch tw th).1 ≤ tw)) ∧
      (0 ≤ (gifSize cw ch tw th).2 ∧ (gifSize cw ch tw th).2 ≤ ch ∧ (0 < th → (gifSize cw ch tw th).2 ≤ th)) := by
  have pos : ∀ {t c : Int}, 0 < t → 1 ≤ c → c ≤ 2 ^ 31 → 0 ≤ div (ofInt t) (ofInt c) := by
    intro t c ht hc hc'
    have t0 : (0 : ℚ) ≤ ofInt t := rnd_nonneg (by exact_mod_cast ht.le)
    have c0 : (0 : ℚ) ≤ ofInt c := rnd_nonneg (by exact_mod_cast (by omega : 0 ≤ c))
    exact rnd_nonneg (div_nonneg t0 c0)
  have key : ∀ {c : Int} {s : ℚ}, 1 ≤ c → c ≤ 2 ^ 31 → 0 ≤ s → s ≤ 1 →
      0 ≤ toInt (mul (ofInt c) s) ∧ toInt (mul (ofInt c) s) ≤ c ∧ ∀ t : Int, 0 < t → s ≤ div (ofInt t) (ofInt c) → toInt (mul (ofInt c) s) ≤ t := by
    intro c s hc hc' s0 s1
    have c0 : (0 : ℚ) ≤ c := by exact_mod_cast (by omega : 0 ≤ c)
    have m0 : 0 ≤ mul (ofInt c) s := by
      rw [ofInt_exact (by omega) (by omega)]
      exact rnd_nonneg (mul_nonneg c0 s0)
    have hle : toInt (mul (ofInt c) s) ≤ c := by
      apply toInt_le _ (by omega)
      rw [ofInt_exact (by omega) (by omega)]
      apply rnd_le_int (by omega) (by omega)
      nlinarith
    refine ⟨toInt_nonneg m0, hle, fun t ht hs => ?_⟩
    by_cases htc : c ≤ t
    · omega
    · have near := mulr_near (n := c) (w := t) (h := c) (by omega) (by omega) (by omega) (by omega) hc (by omega)
      have h1 : toInt (mul (ofInt c) (div (ofInt t) (ofInt c))) ≤ t := side_le (by omega) (by omega) hc (le_refl c) near.2.2
      refine le_trans (toInt_mono m0 ?_) h1
      apply rnd_mono
      rw [ofInt_exact (n := c) (by omega) (by omega)]
      rw [ofInt_exact (n := c) (by omega) (by omega)] at hs
      exact mul_le_mul_of_nonneg_left hs c0
  unfold gifSize
  simp only
  by_cases ht : 0 < tw <;> by_cases hv : 0 < th <;> simp only [if_pos, ht, hv, if_false]
  · have a := pos ht hw hw'
    have b := pos hv hh hh'
    by_cases h1 : 1 < min (div (ofInt tw) (ofInt cw)) (div (ofInt th) (ofInt ch))
    · rw [if_pos h1]
      have k1 := key hw hw' (s := 1) (by norm_num) (by norm_num)
      have k2 := key hh hh' (s := 1) (by norm_num) (by norm_num)
      exact ⟨⟨k1.1, k1.2.1, fun _ => k1.2.2 _ ht (le_trans h1.le (min_le_left _ _))⟩, ⟨k2.1, k2.2.1, fun _ => k2.2.2 _ hv (le_trans h1.le (min_le_right _ _))⟩⟩
    · rw [if_neg h1]
      have k1 := key hw hw' (le_min a b) (not_lt.1 h1)
      have k2 := key hh hh' (le_min a b) (not_lt.1 h1)
      exact ⟨⟨k1.1, k1.2.1, fun _ => k1.2.2 _ ht (min_le_left _ _)⟩, ⟨k2.1, k2.2.1, fun _ => k2.2.2 _ hv (min_le_right _ _)⟩⟩
  · have a := pos ht hw hw'
    by_cases h1 : 1 < div (ofInt tw) (ofInt cw)
    · rw [if_pos h1]
      have k1 := key hw hw' (s := 1) (by norm_num) (by norm_num)
      have k2 := key hh hh' (s := 1) (by norm_num) (by norm_num)
      exact ⟨⟨k1.1, k1.2.1, fun _ => k1.2.2 _ ht h1.le⟩, ⟨k2.1, k2.2.1, fun h => absurd h (by simp)⟩⟩
    · rw [if_neg h1]
      have k1 := key hw hw' a (not_lt.1 h1)
      have k2 := key hh hh' a (not_lt.1 h1)
      exact ⟨⟨k1.1, k1.2.1, fun _ => k1.2.2 _ ht (le_refl _)⟩, ⟨k2.1, k2.2.1, fun h => absurd h (by simp)⟩⟩
  · have b := pos hv hh hh'
    by_cases h1 : 1 < div (ofInt th) (ofInt ch)
    · rw [if_pos h1]
      have k1 := key hw hw' (s := 1) (by norm_num) (by norm_num)
      have k2 := key hh hh' (s := 1) (by norm_num) (by norm_num)
      exact ⟨⟨k1.1, k1.2.1, fun h => absurd h (by simp)⟩, ⟨k2.1, k2.2.1, fun _ => k2.2.2 _ hv h1.le⟩⟩
    · rw [if_neg h1]
      have k1 := key hw hw' b (not_lt.1 h1)
      have k2 := key hh hh' b (not_lt.1 h1)
      exact ⟨⟨k1.1, k1.2.1, fun h => absurd h (by simp)⟩, ⟨k2.1, k2.2.1, fun _ => k2.2.2 _ hv (le_refl _)⟩⟩
  · have k1 := key hw hw' (s := 1) (by norm_num) (by norm_num)
    have k2 := key hh hh' (s := 1) (by norm_num) (by norm_num)
    exact ⟨⟨k1.1, k1.2.1, fun h => absurd h (by simp)⟩, ⟨k2.1, k2.2.1, fun h => absurd h (by simp)⟩⟩

/-! ## Icons -/

theorem insert_filter (m x : Int) (l : List Int) (hl : l.Pairwise (· ≤ ·)) :
    (insertSorted x l).filter (fun y => decide (y < m)) = if x < m then insertSorted x (l.filter fun y => decide (y < m)) else l.filter fun y => decide (y < m) := by
  induction l with
  | nil => by_cases h : x < m <;> simp [insertSorted, h]
  | cons y l ih =>
    obtain ⟨hy, hl'⟩ := List.pairwise_cons.1 hl
    have ih := ih hl'
    by_cases hxy : x ≤ y
    · by_cases hx : x < m
      · by_cases hym : y < m
        · simp [insertSorted, hxy, hx, hym]
        · have : l.filter (fun y => decide (y < m)) = [] := by
            rw [List.filter_eq_nil_iff]
            intro z hz
            have := hy z hz
            simp; omega
          simp [insertSorted, hxy, hx, hym, this]
      · simp [insertSorted, hxy, hx]
    · by_cases hx : x < m
      · by_cases hym : y < m
        · simp [insertSorted, hxy, hx, hym, ih]
        · exact absurd hx (by omega)
      · by_cases hym : y < m
        · simp [insertSorted, hxy, hx, hym, ih]
        · simp [insertSorted, hxy, hx, hym, ih]

theorem insert_mem (x z : Int) (l : List Int) : z ∈ insertSorted x l ↔ z = x ∨ z ∈ l := by
  induction l with
  | nil => simp [insertSorted]
  | cons y l ih => unfold insertSorted; split <;> simp [ih]; tauto

theorem insert_pairwise (x : Int) (l : List Int) (hl : l.Pairwise (· ≤ ·)) : (insertSorted x l).Pairwise (· ≤ ·) := by
  induction l with
  | nil => simp [insertSorted]
  | cons y l ih =>
    obtain ⟨hy, hl'⟩ := List.pairwise_cons.1 hl
    unfold insertSorted
    split
    · rename_i hxy
      refine List.pairwise_cons.2 ⟨?_, hl⟩
      intro z hz
      rcases List.mem_cons.1 hz with rfl | hz
      · exact hxy
      · have := hy z hz; omega
    · refine List.pairwise_cons.2 ⟨?_, ih hl'⟩
      intro z hz
      rcases (insert_mem x z l).1 hz with rfl | hz
      · omega
      · exact hy z hz

theorem sort_pairwise (l : List Int) : (sortInts l).Pairwise (· ≤ ·) := by
  induction l with
  | nil => simp [sortInts]
  | cons x l ih => exact insert_pairwise x _ ih

theorem sort_filter (m : Int) (l : List Int) : (sortInts l).filter (fun y => decide (y < m)) = sortInts (l.filter fun y => decide (y < m)) := by
  induction l with
  | nil => rfl
  | cons x l ih =>
    rw [sortInts, insert_filter m x _ (sort_pairwise l), ih]
    by_cases h : x < m <;> simp [h, sortInts]

theorem sort_sorted (l : List Int) (hl : l.Pairwise (· ≤ ·)) : sortInts l = l := by
  induction l with
  | nil => rfl
  | cons x l ih =>
    obtain ⟨hy, hl'⟩ := List.pairwise_cons.1 hl
    rw [sortInts, ih hl']
    cases l with
    | nil => rfl
    | cons y l => unfold insertSorted; rw [if_pos (hy y (by simp))]

theorem takeWhile_filter (m : Int) (l : List Int) (hl : l.Pairwise (· ≤ ·)) :
    l.takeWhile (fun y => decide (y < m)) = l.filter fun y => decide (y < m) := by
  induction l with
  | nil => rfl
  | cons x l ih =>
    obtain ⟨hy, hl'⟩ := List.pairwise_cons.1 hl
    by_cases h : x < m
    · simp [h, ih hl']
    · have : l.filter (fun y => decide (y < m)) = [] := by
        rw [List.filter_eq_nil_iff]
        intro z hz
        have := hy z hz
        simp; omega
      simp [h, this]

theorem take_search (m : Int) (l : List Int) (hl : l.Pairwise (· ≤ ·)) : l.take (searchInts l m) = l.filter fun y => decide (y < m) := by
  rw [← takeWhile_filter m l hl]
  unfold searchInts
  exact List.prefix_iff_eq_take.1 (List.takeWhile_prefix _) |>.symm

theorem search_min (l : List Int) (hl : l.Pairwise (· ≤ ·)) (w h : Int) : min (searchInts l w) (searchInts l h) = searchInts l (min w h) := by
  have mono : ∀ {a b : Int}, a ≤ b → searchInts l a ≤ searchInts l b := by
    intro a b hab
    unfold searchInts
    rw [takeWhile_filter a l hl, takeWhile_filter b l hl, ← List.countP_eq_length_filter, ← List.countP_eq_length_filter]
    apply List.countP_mono_left
    intro x _ hx
    simp at hx ⊢; omega
  rcases le_total w h with hc | hc
  · rw [min_eq_left hc, min_eq_left (mono hc)]
  · rw [min_eq_right hc, min_eq_right (mono hc)]

theorem ico_list (w h : Int) :
    (sortInts [16, 32, 48, 64, 128, w, h]).take (min (searchInts (sortInts [16, 32, 48, 64, 128, w, h]) w) (searchInts (sortInts [16, 32, 48, 64, 128, w, h]) h)) =
      [16, 32, 48, 64, 128].filter fun n => decide (n < min w h) := by
  rw [search_min _ (sort_pairwise _), take_search _ _ (sort_pairwise _), sort_filter]
  have : ([16, 32, 48, 64, 128, w, h] : List Int).filter (fun n => decide (n < min w h)) = ([16, 32, 48, 64, 128] : List Int).filter fun n => decide (n < min w h) := by
    rw [show ([16, 32, 48, 64, 128, w, h] : List Int) = [16, 32, 48, 64, 128] ++ [w, h] from rfl, List.filter_append]
    have : ([w, h] : List Int).filter (fun n => decide (n < min w h)) = [] := by
      rw [List.filter_eq_nil_iff]
      intro z hz
      simp at hz
      simp; omega
    rw [this, List.append_nil]
  rw [this]
  apply sort_sorted
  apply List.Pairwise.filter
  decide

/-! ## Cropping -/

theorem crop_at {α : Type} (img : Img α) (hx : img.b.x0 = 0) (hy : img.b.y0 = 0) {x y x1 y1 : Int} (h1 : x ≤ x1) (h2 : y ≤ y1) :
    ((max x 0 < min x1 img.b.dx ∧ max y 0 < min y1 img.b.dy) →
      (imagingCrop img (mkRect x y x1 y1)).b = ⟨0, 0, min x1 img.b.dx - max x 0, min y1 img.b.dy - max y 0⟩ ∧
      ∀ i j, (imagingCrop img (mkRect x y x1 y1)).px i j = img.px (max x 0 + i) (max y 0 + j)) ∧
    (¬ (max x 0 < min x1 img.b.dx ∧ max y 0 < min y1 img.b.dy) → (imagingCrop img (mkRect x y x1 y1)).b = ⟨0, 0, 0, 0⟩) := by
  have e1 : img.b.x1 = img.b.dx := by unfold Rect.dx; omega
  have e2 : img.b.y1 = img.b.dy := by unfold Rect.dy; omega
  have m : mkRect x y x1 y1 = ⟨x, y, x1, y1⟩ := by
    unfold mkRect
    rw [if_neg (by omega), if_neg (by omega)]
  rw [m]
  unfold imagingCrop Rect.inter Rect.empty
  simp only [hx, hy, e1, e2]
  constructor
  · intro h
    have : (decide (min x1 img.b.dx ≤ max x 0) || decide (min y1 img.b.dy ≤ max y 0)) = false := by simp; omega
    rw [this]
    simp only [Bool.false_eq_true, if_false]
    have : (decide (min x1 img.b.dx ≤ max x 0) || decide (min y1 img.b.dy ≤ max y 0)) = false := by simp; omega
    rw [this]
    simp [Rect.dx, Rect.dy]
  · intro h
    have : (decide (min x1 img.b.dx ≤ max x 0) || decide (min y1 img.b.dy ≤ max y 0)) = true := by simp; omega
    rw [this]
    simp

end Gofer.Image
