import Verif.Proof.Image

/-! # Ratios, boxes and limits in `image` -/
namespace Gofer.Image
open Gofer F64

/-- Truncating an approximation of `n * w / h` gives the quotient, or one less when it is exact. -/
theorem floor_bracket {q : ℚ} {n w h : Int} (hq : 0 ≤ q) (hn : 0 ≤ n) (hw : 1 ≤ w) (hh : 1 ≤ h) (hb : n * w ≤ 2 ^ 50)
    (lo : (n : ℚ) * w * (1 - 1 / 2 ^ 51) ≤ q * h) (up : q * h ≤ n * w * (1 + 1 / 2 ^ 51)) :
    toInt q * h ≤ n * w ∧ n * w ≤ (toInt q + 1) * h := by
  obtain ⟨t1, t2⟩ := toInt_near hq
  generalize toInt q = t at *
  have h0 : (0 : ℚ) < h := by exact_mod_cast (by omega : (0 : Int) < h)
  have hb' : (n : ℚ) * w ≤ 2 ^ 50 := by exact_mod_cast hb
  have nw0 : (0 : ℚ) ≤ n * w := by exact_mod_cast (mul_nonneg hn (by omega))
  have a1 : (t : ℚ) * h ≤ q * h := mul_le_mul_of_nonneg_right t1 h0.le
  have a2 : q * h < (t + 1) * h := mul_lt_mul_of_pos_right t2 h0
  have b1 : (t : ℚ) * h < n * w + 1 := by norm_num at hb' lo up ⊢; linarith
  have b2 : (n : ℚ) * w < (t + 1) * h + 1 := by norm_num at hb' lo up ⊢; linarith
  have c1 : t * h < n * w + 1 := by exact_mod_cast b1
  have c2 : n * w < (t + 1) * h + 1 := by exact_mod_cast b2
  exact ⟨by omega, by omega⟩

theorem prod_le {a b : Int} (ha : 0 ≤ a) (ha' : a ≤ 2 ^ 25) (hb : 0 ≤ b) (hb' : b ≤ 2 ^ 25) : a * b ≤ 2 ^ 50 := by
  have := mul_le_mul ha' hb' hb (by norm_num)
  norm_num at this ⊢; exact this

section
variable {w h : Int} (hw : 1 ≤ w) (hw' : w ≤ 2 ^ 25) (hh : 1 ≤ h) (hh' : h ≤ 2 ^ 25)
include hw hw' hh hh'

theorem mulr_bracket {n : Int} (h0 : 0 ≤ n) (hn : n ≤ 2 ^ 25) :
    toInt (mul (ofInt n) (div (ofInt w) (ofInt h))) * h ≤ n * w ∧ n * w ≤ (toInt (mul (ofInt n) (div (ofInt w) (ofInt h))) + 1) * h := by
  obtain ⟨a, b, c⟩ := mulr_near h0 (by omega) hw (by omega) hh (by omega)
  exact floor_bracket a h0 hw hh (prod_le h0 hn (by omega) hw') b c

theorem divr_bracket {n : Int} (h0 : 0 ≤ n) (hn : n ≤ 2 ^ 25) :
    toInt (div (ofInt n) (div (ofInt w) (ofInt h))) * w ≤ n * h ∧ n * h ≤ (toInt (div (ofInt n) (div (ofInt w) (ofInt h))) + 1) * w := by
  obtain ⟨a, b, c⟩ := divr_near h0 (by omega) hw (by omega) hh (by omega)
  exact floor_bracket a h0 hh hw (prod_le h0 hn (by omega) hh') b c

/-- Within a pixel of the ratio. -/
def Near (w h a b : Int) : Prop := (a * h ≤ b * w ∧ b * w ≤ (a + 1) * h) ∨ (b * w ≤ a * h ∧ a * h ≤ (b + 1) * w)

omit hw' hh' in
theorem near_self : Near w h w h := .inl ⟨by rw [mul_comm], by nlinarith⟩

theorem near_w {n : Int} (h0 : 1 ≤ n) (hn : n ≤ 2 ^ 25) : Near w h (toInt (mul (ofInt n) (div (ofInt w) (ofInt h)))) n :=
  .inl (mulr_bracket hw hw' hh hh' (by omega) hn)

theorem near_h {n : Int} (h0 : 1 ≤ n) (hn : n ≤ 2 ^ 25) : Near w h n (toInt (div (ofInt n) (div (ofInt w) (ofInt h)))) :=
  .inr (divr_bracket hw hw' hh hh' (by omega) hn)

theorem min_near {nw nh : Int} (h1 : 0 ≤ nw) (h2 : 0 ≤ nh) :
    Near w h (getMinAndkeepRatio w h nw nh).1 (getMinAndkeepRatio w h nw nh).2 := by
  unfold getMinAndkeepRatio
  simp only
  have ha : 1 ≤ (if nw = 0 then w else nw) := by split <;> omega
  have hb : 1 ≤ (if nh = 0 then h else nh) := by split <;> omega
  generalize (if nw = 0 then w else nw) = a at *
  generalize (if nh = 0 then h else nh) = b at *
  split
  · exact near_self hw hh
  · split
    · split
      · exact near_w hw hw' hh hh' hb (by omega)
      · exact near_h hw hw' hh hh' ha (by omega)
    · split
      · exact near_w hw hw' hh hh' hb (by omega)
      · exact near_h hw hw' hh hh' ha (by omega)

theorem max_near {nw nh : Int} (h1 : 0 ≤ nw) (h2 : 0 ≤ nh) :
    Near w h (getMaxAndkeepRatio w h nw nh).1 (getMaxAndkeepRatio w h nw nh).2 := by
  unfold getMaxAndkeepRatio
  simp only
  have ha : 1 ≤ (if nw = 0 then w else nw) := by split <;> omega
  have hb : 1 ≤ (if nh = 0 then h else nh) := by split <;> omega
  generalize (if nw = 0 then w else nw) = a at *
  generalize (if nh = 0 then h else nh) = b at *
  split
  · exact near_self hw hh
  · rw [if_pos (by omega)]
    split
    · exact near_h hw hw' hh hh' ha (by omega)
    · exact near_w hw hw' hh hh' hb (by omega)

/-- After `imaging.Resize`, that replaces a zero side, the ratio is still kept within a pixel. -/
theorem resize_near {a b : Int} (ha : 0 ≤ a) (ha' : a ≤ 2 ^ 25) (hb : 0 ≤ b) (hb' : b ≤ 2 ^ 25) (hn : Near w h a b) :
    |(resizeSize w h a b).1 * h - (resizeSize w h a b).2 * w| ≤ max w h := by
  have hmw : w ≤ max w h := le_max_left _ _
  have hmh : h ≤ max w h := le_max_right _ _
  generalize max w h = m at *
  rw [resizeSize_eq, if_neg (by omega)]
  split
  · simp; omega
  · rw [if_neg (by omega)]
    split
    · rename_i h1 h2
      subst h2
      have hb1 : b * w ≤ 1 * h := by
        rcases hn with ⟨_, hn⟩ | ⟨hn, _⟩
        · simpa using hn
        · nlinarith
      have e : autoSide (div (mul (ofInt b) (ofInt w)) (ofInt h)) = 1 := by
        have := auto_le hw (by omega) hh (by omega) hb (by omega) (le_refl _) (by norm_num) hb1
        have := autoSide_pos (div (mul (ofInt b) (ofInt w)) (ofInt h))
        omega
      rw [e]
      simp only
      have : 0 ≤ b * w := mul_nonneg hb (by omega)
      rw [abs_le]; constructor <;> omega
    · split
      · rename_i h1 _ h2
        subst h2
        have ha1 : a * h ≤ 1 * w := by
          rcases hn with ⟨hn, _⟩ | ⟨_, hn⟩
          · nlinarith
          · simpa using hn
        have e : autoSide (div (mul (ofInt a) (ofInt h)) (ofInt w)) = 1 := by
          have := auto_le hh (by omega) hw (by omega) ha (by omega) (le_refl _) (by norm_num) ha1
          have := autoSide_pos (div (mul (ofInt a) (ofInt h)) (ofInt w))
          omega
        rw [e]
        simp only
        have : 0 ≤ a * h := mul_nonneg ha (by omega)
        rw [abs_le]; constructor <;> omega
      · rw [abs_le]
        simp only
        rcases hn with ⟨n1, n2⟩ | ⟨n1, n2⟩
        · rw [add_mul, one_mul] at n2
          constructor <;> omega
        · rw [add_mul, one_mul] at n2
          constructor <;> omega

/-- Mode 0 in a box that is not too elongated. -/
theorem min_fits {a b : Int} (h1 : 1 ≤ a) (h2 : 1 ≤ b)
    (hc : ((b < a → b * w ≤ a * h) ∧ (a ≤ b → a * h ≤ b * w)) ∨ w ≤ a ∨ h ≤ b) :
    (resizeSize w h (getMinAndkeepRatio w h a b).1 (getMinAndkeepRatio w h a b).2).1 ≤ a ∧
      (resizeSize w h (getMinAndkeepRatio w h a b).1 (getMinAndkeepRatio w h a b).2).2 ≤ b := by
  have key1 : ∀ {n m : Int}, 1 ≤ n → n ≤ h → 1 ≤ m → n * w ≤ m * h →
      (resizeSize w h (toInt (mul (ofInt n) (div (ofInt w) (ofInt h)))) n).1 ≤ m ∧ (resizeSize w h (toInt (mul (ofInt n) (div (ofInt w) (ofInt h)))) n).2 ≤ n := by
    intro n m n1 n2 m1 hle
    obtain ⟨b1, b2⟩ := mulr_bracket hw hw' hh hh' (n := n) (by omega) (by omega)
    have t0 := mulr_nonneg hw (by omega) hh (by omega) (n := n) (by omega) (by omega)
    generalize toInt (mul (ofInt n) (div (ofInt w) (ofInt h))) = t at *
    rw [resizeSize_eq, if_neg (by omega), if_neg (by omega), if_neg (by omega)]
    split
    · rename_i ht
      subst ht
      refine ⟨le_trans (auto_le hw (by omega) hh (by omega) (m := 1) (by omega) (by omega) (by omega) (by norm_num) (by simpa using b2)) m1, le_refl _⟩
    · rw [if_neg (by omega)]
      exact ⟨le_of_mul_le_mul_right (le_trans b1 hle) (by omega), le_refl _⟩
  have key2 : ∀ {n m : Int}, 1 ≤ n → n ≤ w → 1 ≤ m → n * h ≤ m * w →
      (resizeSize w h n (toInt (div (ofInt n) (div (ofInt w) (ofInt h))))).1 ≤ n ∧ (resizeSize w h n (toInt (div (ofInt n) (div (ofInt w) (ofInt h))))).2 ≤ m := by
    intro n m n1 n2 m1 hle
    obtain ⟨b1, b2⟩ := divr_bracket hw hw' hh hh' (n := n) (by omega) (by omega)
    have t0 := divr_nonneg hw (by omega) hh (by omega) (n := n) (by omega) (by omega)
    generalize toInt (div (ofInt n) (div (ofInt w) (ofInt h))) = t at *
    rw [resizeSize_eq, if_neg (by omega), if_neg (by omega), if_neg (by omega), if_neg (by omega)]
    split
    · rename_i ht
      subst ht
      refine ⟨le_refl _, le_trans (auto_le hh (by omega) hw (by omega) (m := 1) (by omega) (by omega) (by omega) (by norm_num) (by simpa using b2)) m1⟩
    · exact ⟨le_refl _, le_of_mul_le_mul_right (le_trans b1 hle) (by omega)⟩
  unfold getMinAndkeepRatio
  simp only
  rw [if_neg (by omega : ¬ a = 0), if_neg (by omega : ¬ b = 0)]
  split
  · simp only [resizeSize_eq]
    rw [if_neg (by omega), if_neg (by omega), if_neg (by omega), if_neg (by omega), if_neg (by omega)]
    simp only; omega
  · split
    · have hc' := hc.resolve_right (by omega)
      split
      · exact key1 h2 (by omega) h1 (hc'.1 (by omega))
      · exact key2 h1 (by omega) h2 (hc'.2 (by omega))
    · split
      · exact key1 h2 (by omega) h1 (by rw [mul_comm a]; exact mul_le_mul (by omega) (by omega) (by omega) (by omega))
      · exact key2 h1 (by omega) h2 (by rw [mul_comm b]; exact mul_le_mul (by omega) (by omega) (by omega) (by omega))

end

/-- `float64(nw)/float64(nh)` against the ratio of the image. -/
theorem lower_le {w h nw nh : Int} (hw : 1 ≤ w) (hw' : w ≤ 2 ^ 31) (hh : 1 ≤ h) (hh' : h ≤ 2 ^ 31)
    (h1 : 1 ≤ nw) (h1' : nw ≤ 2 ^ 31) (h2 : 1 ≤ nh) (h2' : nh ≤ 2 ^ 31) {r : ℚ} (hr : r = div (ofInt w) (ofInt h)) :
    (div (ofInt nw) (ofInt nh) < r → nw - 1 ≤ toInt (mul (ofInt nh) r) ∧ nw ≤ toInt (mul (ofInt nh) r) ∧ toInt (div (ofInt nw) r) ≤ nh) ∧
      (¬ div (ofInt nw) (ofInt nh) < r → toInt (mul (ofInt nh) r) ≤ nw ∧ nh - 1 ≤ toInt (div (ofInt nw) r)) := by
  obtain ⟨r0, _, _⟩ := ratio_near hw (by omega) hh (by omega)
  obtain ⟨c0, c1, c2⟩ := ratio_near h1 (by omega) h2 (by omega)
  rw [← hr] at r0
  have hcr : div (ofInt nw) (ofInt nh) < r → (nw : ℚ) ≤ nh * r := by
    intro hlt
    have n0 : (0 : ℚ) < nh := by exact_mod_cast (by omega : (0 : Int) < nh)
    have hrr : rnd r = r := by
      rw [hr]
      unfold div
      apply rnd_rnd
      rw [ofInt_exact (n := w) (by omega) (by omega), ofInt_exact (n := h) (by omega) (by omega)]
      have : (0 : ℚ) < w := by exact_mod_cast (by omega : (0 : Int) < w)
      have : (0 : ℚ) < h := by exact_mod_cast (by omega : (0 : Int) < h)
      positivity
    rw [ofInt_exact (n := nw) (by omega) (by omega), ofInt_exact (n := nh) (by omega) (by omega)] at hlt
    rcases le_total r ((nw : ℚ) / nh) with hle | hle
    · have := rnd_mono hle
      rw [hrr] at this
      exact absurd hlt (not_lt.2 this)
    · rw [div_le_iff₀ n0] at hle
      rwa [mul_comm]
  have n0 : (0 : ℚ) < nh := by exact_mod_cast (by omega : (0 : Int) < nh)
  have m0 : (0 : ℚ) < nw := by exact_mod_cast (by omega : (0 : Int) < nw)
  have n1 : (nh : ℚ) ≤ 2 ^ 31 := by exact_mod_cast h2'
  have m1 : (nw : ℚ) ≤ 2 ^ 31 := by exact_mod_cast h1'
  generalize div (ofInt nw) (ofInt nh) = c at *
  rw [ofInt_exact (n := nw) (by omega) (by omega), ofInt_exact (n := nh) (by omega) (by omega)]
  have key : ∀ {x : ℚ}, 0 ≤ x → x ≤ nw * (1 + 1 / 2 ^ 53) → toInt (rnd x) ≤ nw := by
    intro x x0 hx
    apply toInt_lt _ (by omega)
    have := (rnd_bounds x0).2
    norm_num at *
    linarith
  have key2 : ∀ {x : ℚ}, 0 ≤ x → x ≤ nh * (1 + 1 / 2 ^ 52) → toInt (rnd x) ≤ nh := by
    intro x x0 hx
    apply toInt_lt _ (by omega)
    have := (rnd_bounds x0).2
    norm_num at *
    linarith
  constructor
  · intro hc
    have e' : nw ≤ toInt (mul nh r) := by
      have := le_rnd_int (n := nw) (by omega) (by omega) (hcr hc)
      exact le_toInt this (rnd_nonneg (by positivity))
    refine ⟨by omega, e', ?_⟩
    apply key2 (by positivity)
    rw [div_le_iff₀ r0]
    have : (nw : ℚ) * (1 - 1 / 2 ^ 53) ≤ r * nh := by nlinarith
    norm_num at *
    nlinarith
  · intro hc
    have hc := not_lt.1 hc
    constructor
    · apply key (by positivity)
      nlinarith
    · have hq : (0 : ℚ) ≤ nw / r := by positivity
      apply lt_toInt _ (rnd_nonneg hq)
      have b := (rnd_bounds hq).1
      have : (nh : ℚ) * (1 - 1 / 2 ^ 53) ≤ nw / r := by
        rw [le_div_iff₀ r0]
        have : r * nh ≤ nw * (1 + 1 / 2 ^ 53) := by nlinarith
        norm_num at *
        nlinarith
      norm_num at *
      linarith

theorem wrap_id {n : Int} (h1 : -2 ^ 63 ≤ n) (h2 : n < 2 ^ 63) : wrap n = n := by
  unfold wrap
  rw [Int.bmod_eq_of_le] <;> omega

/-- What `scaleImageWithRatio` computes before it looks at the limit. -/
def boxSize (w h nw nh : Int) (lower : Bool) : Int × Int :=
  let r := div (ofInt w) (ofInt h)
  if lower then
    if div (ofInt nw) (ofInt nh) < r then (nw, toInt (div (ofInt nw) r)) else (toInt (mul (ofInt nh) r), nh)
  else
    if div (ofInt nw) (ofInt nh) < r then (toInt (mul (ofInt nh) r), nh) else (nw, toInt (div (ofInt nw) r))

theorem ratioSize_eq {w h nw nh : Int} (h1 : nw ≠ 0) (h2 : nh ≠ 0) (maxPixel : Int) (lower : Bool) :
    ratioSize w h nw nh maxPixel lower =
      if 0 < maxPixel ∧ maxPixel < wrap ((boxSize w h nw nh lower).1 * (boxSize w h nw nh lower).2) then
        scaleDownToLimit (boxSize w h nw nh lower).1 (boxSize w h nw nh lower).2 maxPixel
      else boxSize w h nw nh lower := by
  unfold ratioSize boxSize
  simp only [if_neg h1, if_neg h2]

section
variable {w h nw nh : Int} (hw : 1 ≤ w) (hw' : w ≤ 2 ^ 25) (hh : 1 ≤ h) (hh' : h ≤ 2 ^ 25)
  (h1 : 1 ≤ nw) (h1' : nw ≤ 2 ^ 25) (h2 : 1 ≤ nh) (h2' : nh ≤ 2 ^ 25)
include hw hw' hh hh' h1 h1' h2 h2'

theorem box_near (lower : Bool) : Near w h (boxSize w h nw nh lower).1 (boxSize w h nw nh lower).2 := by
  unfold boxSize
  simp only
  have a := near_w hw hw' hh hh' h2 h2'
  have b := near_h hw hw' hh hh' h1 h1'
  repeat' split
  all_goals first | exact a | exact b

theorem box_nonneg (lower : Bool) : 0 ≤ (boxSize w h nw nh lower).1 ∧ 0 ≤ (boxSize w h nw nh lower).2 := by
  unfold boxSize
  simp only
  have a := mulr_nonneg hw (by omega) hh (by omega) (n := nh) (by omega) (by omega)
  have b := divr_nonneg hw (by omega) hh (by omega) (n := nw) (by omega) (by omega)
  repeat' split
  all_goals first | exact ⟨a, by show 0 ≤ nh; omega⟩ | exact ⟨by show 0 ≤ nw; omega, b⟩

theorem lower_fits : (scaleSize w h nw nh 0 true).1 ≤ nw ∧ (scaleSize w h nw nh 0 true).2 ≤ nh := by
  unfold scaleSize
  rw [ratioSize_eq (by omega) (by omega), if_neg (by omega)]
  obtain ⟨l1, l2⟩ := lower_le hw (by omega) hh (by omega) h1 (by omega) h2 (by omega) rfl
  have m0 := mulr_nonneg hw (by omega) hh (by omega) (n := nh) (by omega) (by omega)
  have d0 := divr_nonneg hw (by omega) hh (by omega) (n := nw) (by omega) (by omega)
  have mb := (mulr_bracket hw hw' hh hh' (n := nh) (by omega) h2').2
  have db := (divr_bracket hw hw' hh hh' (n := nw) (by omega) h1').2
  unfold boxSize
  simp only [if_true]
  split
  · rename_i hc
    have := (l1 hc).2.2
    generalize toInt (div (ofInt nw) (div (ofInt w) (ofInt h))) = t at *
    simp only
    rw [resizeSize_eq, if_neg (by omega), if_neg (by omega), if_neg (by omega), if_neg (by omega)]
    split
    · rename_i ht
      subst ht
      exact ⟨le_refl _, le_trans (auto_le hh (by omega) hw (by omega) (m := 1) (by omega) (by omega) (by omega) (by norm_num) (by simpa using db)) h2⟩
    · exact ⟨le_refl _, this⟩
  · rename_i hc
    have := (l2 hc).1
    generalize toInt (mul (ofInt nh) (div (ofInt w) (ofInt h))) = t at *
    simp only
    rw [resizeSize_eq, if_neg (by omega), if_neg (by omega), if_neg (by omega)]
    split
    · rename_i ht
      subst ht
      exact ⟨le_trans (auto_le hw (by omega) hh (by omega) (m := 1) (by omega) (by omega) (by omega) (by norm_num) (by simpa using mb)) h1, le_refl _⟩
    · rw [if_neg (by omega)]
      exact ⟨this, le_refl _⟩

theorem upper_covers : nw ≤ (scaleSize w h nw nh 0 false).1 ∧ nh - 1 ≤ (scaleSize w h nw nh 0 false).2 := by
  unfold scaleSize
  rw [ratioSize_eq (by omega) (by omega), if_neg (by omega)]
  obtain ⟨l1, l2⟩ := lower_le hw (by omega) hh (by omega) h1 (by omega) h2 (by omega) rfl
  have m0 := mulr_nonneg hw (by omega) hh (by omega) (n := nh) (by omega) (by omega)
  have d0 := divr_nonneg hw (by omega) hh (by omega) (n := nw) (by omega) (by omega)
  unfold boxSize
  simp only [Bool.false_eq_true, if_false]
  split
  · rename_i hc
    have := (l1 hc).2.1
    generalize toInt (mul (ofInt nh) (div (ofInt w) (ofInt h))) = t at *
    simp only
    rw [resizeSize_eq, if_neg (by omega), if_neg (by omega), if_neg (by omega), if_neg (by omega), if_neg (by omega)]
    exact ⟨this, by show nh - 1 ≤ nh; omega⟩
  · rename_i hc
    have := (l2 hc).2
    generalize toInt (div (ofInt nw) (div (ofInt w) (ofInt h))) = t at *
    simp only
    rw [resizeSize_eq, if_neg (by omega), if_neg (by omega), if_neg (by omega), if_neg (by omega)]
    split
    · rename_i ht
      have := autoSide_pos (div (mul (ofInt nw) (ofInt h)) (ofInt w))
      exact ⟨le_refl _, by simp only; omega⟩
    · exact ⟨le_refl _, this⟩

end

/-- Scaling two sides down to a number of pixels. -/
theorem limit_le {w h a b L : Int} (hw : 1 ≤ w) (hw' : w ≤ 2 ^ 16) (hh : 1 ≤ h) (hh' : h ≤ 2 ^ 16) (ha : 0 ≤ a) (hb : 0 ≤ b)
    (hab : a * b ≤ 2 ^ 48) (hL : 1 ≤ L) (hlt : L < a * b) (hn : Near w h a b) {x y : Int}
    (hx : (x, y) = resizeSize w h (scaleDownToLimit a b L).1 (scaleDownToLimit a b L).2) : x * y ≤ L ∨ x ≤ 2 ∨ y ≤ 2 := by
  have hab0 : 0 < a * b := by omega
  have ha1 : 1 ≤ a := by
    rcases ha.lt_or_eq with h | h
    · omega
    · rw [← h] at hab0; simp at hab0
  have hb1 : 1 ≤ b := by
    rcases hb.lt_or_eq with h | h
    · omega
    · rw [← h] at hab0; simp at hab0
  have a48 : a ≤ 2 ^ 48 := by nlinarith
  have b48 : b ≤ 2 ^ 48 := by nlinarith
  unfold scaleDownToLimit at hx
  rw [if_neg (by omega), wrap_id (by omega) (by omega), if_neg (by omega)] at hx
  simp only at hx
  rw [ofInt_exact (n := a) (by omega) (by omega), ofInt_exact (n := b) (by omega) (by omega), ofInt_exact (n := L) (by omega) (by omega), ofInt_exact (n := a * b) (by omega) (by omega)] at hx
  have qa : (1 : ℚ) ≤ a := by exact_mod_cast ha1
  have qb : (1 : ℚ) ≤ b := by exact_mod_cast hb1
  have qL : (1 : ℚ) ≤ L := by exact_mod_cast hL
  have qL' : (L : ℚ) ≤ 2 ^ 48 := by exact_mod_cast (by omega : L ≤ 2 ^ 48)
  have qw : (1 : ℚ) ≤ w := by exact_mod_cast hw
  have qh : (1 : ℚ) ≤ h := by exact_mod_cast hh
  have qw' : (w : ℚ) ≤ 2 ^ 16 := by exact_mod_cast hw'
  have qh' : (h : ℚ) ≤ 2 ^ 16 := by exact_mod_cast hh'
  have qab : (0 : ℚ) < a * b := by positivity
  have d0 : (0 : ℚ) < L / ((a * b : Int) : ℚ) := by push_cast; positivity
  have dle := (rnd_bounds d0.le).2
  obtain ⟨s0, s1⟩ := sqrt_sq (rnd_pos d0)
  have hs : F64.sqrt (div (L : ℚ) ((a * b : Int) : ℚ)) * F64.sqrt (div (L : ℚ) ((a * b : Int) : ℚ)) * (a * b) ≤ L * (1 + 1 / 2 ^ 50) := by
    have e : (L : ℚ) / ((a * b : Int) : ℚ) * (a * b) = L := by push_cast; exact div_mul_cancel₀ _ qab.ne'
    calc _ ≤ rnd (L / ((a * b : Int) : ℚ)) * (1 + 1 / 2 ^ 51) * (a * b) := mul_le_mul_of_nonneg_right s1 qab.le
      _ ≤ L / ((a * b : Int) : ℚ) * (1 + 1 / 2 ^ 53) * (1 + 1 / 2 ^ 51) * (a * b) :=
        mul_le_mul_of_nonneg_right (mul_le_mul_of_nonneg_right dle (by norm_num)) qab.le
      _ = L / ((a * b : Int) : ℚ) * (a * b) * ((1 + 1 / 2 ^ 53) * (1 + 1 / 2 ^ 51)) := by ring
      _ = L * ((1 + 1 / 2 ^ 53) * (1 + 1 / 2 ^ 51)) := by rw [e]
      _ ≤ L * (1 + 1 / 2 ^ 50) := mul_le_mul_of_nonneg_left (by norm_num) (by linarith)
  replace s0 : 0 ≤ F64.sqrt (div (L : ℚ) ((a * b : Int) : ℚ)) := s0
  generalize F64.sqrt (div (L : ℚ) ((a * b : Int) : ℚ)) = s at *
  have as0 : (0 : ℚ) ≤ a * s := by positivity
  have bs0 : (0 : ℚ) ≤ b * s := by positivity
  have ab := rnd_bounds as0
  have bb := rnd_bounds bs0
  have ta := toInt_near (rnd_nonneg as0)
  have tb := toInt_near (rnd_nonneg bs0)
  have ta0 := toInt_nonneg (rnd_nonneg as0)
  have tb0 := toInt_nonneg (rnd_nonneg bs0)
  unfold mul at hx
  generalize toInt (rnd (a * s)) = t at *
  generalize toInt (rnd (b * s)) = u at *
  have qt0 : (0 : ℚ) ≤ t := by exact_mod_cast ta0
  have qu0 : (0 : ℚ) ≤ u := by exact_mod_cast tb0
  rw [resizeSize_eq, if_neg (by omega)] at hx
  by_cases hz : t = 0 ∧ u = 0
  · rw [if_pos hz] at hx
    obtain ⟨rfl, rfl⟩ := Prod.ext_iff.1 hx
    left; simp; omega
  rw [if_neg hz, if_neg (by omega)] at hx
  by_cases ht : t = 0
  · subst ht
    rw [if_pos rfl] at hx
    right; left
    rw [show x = _ from (Prod.ext_iff.1 hx).1]
    simp only
    have has : (a : ℚ) * s < 1 + 1 / 2 ^ 50 := by
      have h1 := ab.1; have h2 := ta.2
      push_cast at h2
      norm_num at h1 h2 ⊢
      linarith
    have hs1 : s < 1 + 1 / 2 ^ 50 := by nlinarith
    have hbw : (b : ℚ) * w ≤ (a + 1) * h := by
      rcases hn with ⟨_, n2⟩ | ⟨n1, _⟩
      · exact_mod_cast n2
      · have : (b : ℚ) * w ≤ a * h := by exact_mod_cast n1
        nlinarith
    have hu : (u : ℚ) * w ≤ 2 * h * (1 + 1 / 2 ^ 49) := by
      calc (u : ℚ) * w ≤ b * s * (1 + 1 / 2 ^ 53) * w := mul_le_mul_of_nonneg_right (le_trans tb.1 bb.2) (by linarith)
        _ = b * w * (s * (1 + 1 / 2 ^ 53)) := by ring
        _ ≤ (a + 1) * h * (s * (1 + 1 / 2 ^ 53)) := mul_le_mul_of_nonneg_right hbw (mul_nonneg s0 (by norm_num))
        _ = (a * s + s) * h * (1 + 1 / 2 ^ 53) := by ring
        _ ≤ (2 * (1 + 1 / 2 ^ 50)) * h * (1 + 1 / 2 ^ 53) :=
          mul_le_mul_of_nonneg_right (mul_le_mul_of_nonneg_right (by linarith) (by linarith)) (by norm_num)
        _ = 2 * h * ((1 + 1 / 2 ^ 50) * (1 + 1 / 2 ^ 53)) := by ring
        _ ≤ 2 * h * (1 + 1 / 2 ^ 49) := mul_le_mul_of_nonneg_left (by norm_num) (by linarith)
    have hu' : (u : ℚ) * w < 2 * h + 1 := by norm_num at hu qh' ⊢; linarith
    have hu'' : u * w < 2 * h + 1 := by exact_mod_cast hu'
    have hu3 : u ≤ 2 ^ 31 := by nlinarith
    exact auto_le hw (by omega) hh (by omega) tb0 hu3 (by norm_num) (by norm_num) (by omega)
  rw [if_neg ht] at hx
  by_cases hu : u = 0
  · subst hu
    rw [if_pos rfl] at hx
    right; right
    rw [show y = _ from (Prod.ext_iff.1 hx).2]
    simp only
    have has : (b : ℚ) * s < 1 + 1 / 2 ^ 50 := by
      have h1 := bb.1; have h2 := tb.2
      push_cast at h2
      norm_num at h1 h2 ⊢
      linarith
    have hs1 : s < 1 + 1 / 2 ^ 50 := by nlinarith
    have hbw : (a : ℚ) * h ≤ (b + 1) * w := by
      rcases hn with ⟨n1, _⟩ | ⟨_, n2⟩
      · have : (a : ℚ) * h ≤ b * w := by exact_mod_cast n1
        nlinarith
      · exact_mod_cast n2
    have hu : (t : ℚ) * h ≤ 2 * w * (1 + 1 / 2 ^ 49) := by
      calc (t : ℚ) * h ≤ a * s * (1 + 1 / 2 ^ 53) * h := mul_le_mul_of_nonneg_right (le_trans ta.1 ab.2) (by linarith)
        _ = a * h * (s * (1 + 1 / 2 ^ 53)) := by ring
        _ ≤ (b + 1) * w * (s * (1 + 1 / 2 ^ 53)) := mul_le_mul_of_nonneg_right hbw (mul_nonneg s0 (by norm_num))
        _ = (b * s + s) * w * (1 + 1 / 2 ^ 53) := by ring
        _ ≤ (2 * (1 + 1 / 2 ^ 50)) * w * (1 + 1 / 2 ^ 53) :=
          mul_le_mul_of_nonneg_right (mul_le_mul_of_nonneg_right (by linarith) (by linarith)) (by norm_num)
        _ = 2 * w * ((1 + 1 / 2 ^ 50) * (1 + 1 / 2 ^ 53)) := by ring
        _ ≤ 2 * w * (1 + 1 / 2 ^ 49) := mul_le_mul_of_nonneg_left (by norm_num) (by linarith)
    have hu' : (t : ℚ) * h < 2 * w + 1 := by norm_num at hu qw' ⊢; linarith
    have hu'' : t * h < 2 * w + 1 := by exact_mod_cast hu'
    have hu3 : t ≤ 2 ^ 31 := by nlinarith
    exact auto_le hh (by omega) hw (by omega) ta0 hu3 (by norm_num) (by norm_num) (by omega)
  · rw [if_neg hu] at hx
    left
    rw [show x = _ from (Prod.ext_iff.1 hx).1, show y = _ from (Prod.ext_iff.1 hx).2]
    simp only
    have : (t : ℚ) * u < L + 1 := by
      calc (t : ℚ) * u ≤ (a * s * (1 + 1 / 2 ^ 53)) * (b * s * (1 + 1 / 2 ^ 53)) :=
            mul_le_mul (le_trans ta.1 ab.2) (le_trans tb.1 bb.2) qu0 (mul_nonneg as0 (by norm_num))
        _ = s * s * (a * b) * ((1 + 1 / 2 ^ 53) * (1 + 1 / 2 ^ 53)) := by ring
        _ ≤ L * (1 + 1 / 2 ^ 50) * ((1 + 1 / 2 ^ 53) * (1 + 1 / 2 ^ 53)) := mul_le_mul_of_nonneg_right hs (by norm_num)
        _ = L * ((1 + 1 / 2 ^ 50) * ((1 + 1 / 2 ^ 53) * (1 + 1 / 2 ^ 53))) := by ring
        _ ≤ L * (1 + 1 / 2 ^ 49) := mul_le_mul_of_nonneg_left (by norm_num) (by linarith)
        _ < L + 1 := by norm_num at qL' ⊢; linarith
    have : t * u < L + 1 := by exact_mod_cast this
    omega

end Gofer.Image
