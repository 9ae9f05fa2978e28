import Verif.Spec.Image
import Verif.Proof.ImageMore

/-! # Types of images, and two sizes -/
namespace Gofer.Image
open Gofer F64 Spec.Image

theorem take_prefix {d m : List UInt8} {k : Nat} (h : m.length = k) : d.take k = m ↔ m <+: d := by
  rw [List.prefix_iff_eq_take, h]; exact eq_comm

theorem take_pre {d m : List UInt8} {k : Nat} (h : d.take k = m) : m <+: d := h ▸ List.take_prefix k d

theorem magics_unique : ∀ p ∈ magics, ∀ q ∈ magics, p.2 <+: q.2 → p.1 = q.1 := by decide +kernel

theorem magics_one {d : List UInt8} {p q : String × List UInt8} (hp : p ∈ magics) (hq : q ∈ magics) (h1 : p.2 <+: d) (h2 : q.2 <+: d) : p.1 = q.1 := by
  rcases List.prefix_or_prefix_of_prefix h1 h2 with h | h
  · exact magics_unique p hp q hq h
  · exact (magics_unique q hq p hp h).symm

/-- What is found has its magic number. -/
theorem type_sound {d : List UInt8} (h8 : 8 ≤ d.length) : imageType d = "" ∨ ∃ m, (imageType d, m) ∈ magics ∧ m <+: d := by
  unfold imageType
  rw [if_neg (by omega)]
  split
  · rename_i h; refine .inr ⟨_, ?_, take_pre h⟩; decide
  split
  · rename_i h; refine .inr ⟨_, ?_, take_pre h⟩; decide
  split
  · rename_i h; refine .inr ⟨_, ?_, take_pre h⟩; decide
  split
  · rename_i h; rcases h with h | h
    · refine .inr ⟨_, ?_, take_pre h⟩; decide
    · refine .inr ⟨_, ?_, take_pre h⟩; decide
  split
  · rename_i h; rcases h with h | h
    · refine .inr ⟨_, ?_, take_pre h⟩; decide
    · refine .inr ⟨_, ?_, take_pre h⟩; decide
  split
  · rename_i h; refine .inr ⟨_, ?_, take_pre h⟩; decide
  split
  · rename_i h; refine .inr ⟨_, ?_, take_pre h⟩; decide
  split
  · rename_i h; refine .inr ⟨_, ?_, take_pre h⟩; decide
  split
  · rename_i h; refine .inr ⟨_, ?_, take_pre h⟩; decide
  exact .inl rfl

/-- Nothing is missed. -/
theorem type_empty {d : List UInt8} (h8 : 8 ≤ d.length) (h : imageType d = "") : ∀ t m, (t, m) ∈ magics → ¬ m <+: d := by
  unfold imageType at h
  rw [if_neg (by omega)] at h
  split at h
  · simp at h
  split at h
  · simp at h
  split at h
  · simp at h
  split at h
  · simp at h
  split at h
  · simp at h
  split at h
  · simp at h
  split at h
  · simp at h
  split at h
  · simp at h
  split at h
  · simp at h
  rename_i a1 a2 a3 a4 a5 a6 a7 a8 a9
  rw [not_or] at a4 a5
  intro t m hm hp
  simp only [magics, List.mem_cons, Prod.mk.injEq, List.not_mem_nil, or_false] at hm
  rcases hm with ⟨_, rfl⟩ | ⟨_, rfl⟩ | ⟨_, rfl⟩ | ⟨_, rfl⟩ | ⟨_, rfl⟩ | ⟨_, rfl⟩ | ⟨_, rfl⟩ | ⟨_, rfl⟩ | ⟨_, rfl⟩ | ⟨_, rfl⟩ | ⟨_, rfl⟩
  · exact a1 ((take_prefix rfl).2 hp)
  · exact a2 ((take_prefix rfl).2 hp)
  · exact a3 ((take_prefix rfl).2 hp)
  · exact a4.1 ((take_prefix rfl).2 hp)
  · exact a4.2 ((take_prefix rfl).2 hp)
  · exact a5.1 ((take_prefix rfl).2 hp)
  · exact a5.2 ((take_prefix rfl).2 hp)
  · exact a6 ((take_prefix rfl).2 hp)
  · exact a7 ((take_prefix rfl).2 hp)
  · exact a8 ((take_prefix rfl).2 hp)
  · exact a9 ((take_prefix rfl).2 hp)

theorem type_of_magic {d : List UInt8} (h8 : 8 ≤ d.length) {t : String} {m : List UInt8} (hm : (t, m) ∈ magics) (hp : m <+: d) : imageType d = t := by
  rcases type_sound h8 with h | ⟨m', hm', hp'⟩
  · exact absurd hp (type_empty h8 h t m hm)
  · exact magics_one hm' hm hp' hp

theorem type_short {d : List UInt8} (h : d.length < 8) : imageType d = "" := by unfold imageType; rw [if_pos h]

theorem exact_size {a b k : Int} (ha : 1 ≤ a) (hb : 1 ≤ b) (hk : 1 ≤ k) (ha' : k * a ≤ 2 ^ 25) (hb' : k * b ≤ 2 ^ 25) :
    (a - 1 ≤ (modeSize 0 (k * a) (k * b) (max a b) (min a b)).1 ∧ (modeSize 0 (k * a) (k * b) (max a b) (min a b)).1 ≤ a) ∧
      (b - 1 ≤ (modeSize 0 (k * a) (k * b) (max a b) (min a b)).2 ∧ (modeSize 0 (k * a) (k * b) (max a b) (min a b)).2 ≤ b) := by
  have hw : 1 ≤ k * a := by nlinarith
  have hh : 1 ≤ k * b := by nlinarith
  have wa : a ≤ k * a := by nlinarith
  have hb2 : b ≤ k * b := by nlinarith
  have ns : newSide4mode (k * a) (k * b) (max a b) (min a b) = (a, b) := by
    unfold newSide4mode
    by_cases h : b ≤ a
    · rw [if_pos (mul_le_mul_of_nonneg_left h (by omega)), max_eq_left h, min_eq_right h]
    · have : ¬ k * b ≤ k * a := by
        rw [not_le]; exact mul_lt_mul_of_pos_left (by omega) (by omega)
      rw [if_neg this, max_eq_right (by omega), min_eq_left (by omega)]
  have e : modeSize 0 (k * a) (k * b) (max a b) (min a b) =
      resizeSize (k * a) (k * b) (getMinAndkeepRatio (k * a) (k * b) a b).1 (getMinAndkeepRatio (k * a) (k * b) a b).2 := by
    rw [modeSize_eq, if_pos (by omega)]
    unfold praseMode
    rw [ns]
    simp only
    rw [if_neg (by omega)]
    rfl
  rw [e]
  unfold getMinAndkeepRatio
  simp only
  rw [if_neg (by omega : ¬ a = 0), if_neg (by omega : ¬ b = 0)]
  split
  · rename_i hc
    have h1 : k * a = a := by omega
    have h2 : k * b = b := by omega
    rw [resize_self hw hh]
    simp only; omega
  · rename_i hc
    have hk2 : 2 ≤ k := by
      by_contra hcon
      have : k = 1 := by omega
      subst this
      omega
    rw [if_pos (by constructor <;> nlinarith)]
    split
    · rename_i hba
      obtain ⟨b1, b2⟩ := mulr_bracket hw ha' hh hb' (n := b) (by omega) (by omega)
      have t0 := mulr_nonneg hw (by omega) hh (by omega) (n := b) (by omega) (by omega)
      generalize toInt (mul (ofInt b) (div (ofInt (k * a)) (ofInt (k * b)))) = t at *
      have tl : t ≤ a := by
        have : t * (k * b) ≤ a * (k * b) := by nlinarith
        exact le_of_mul_le_mul_right this (by omega)
      have tg : a ≤ t + 1 := by
        have : a * (k * b) ≤ (t + 1) * (k * b) := by nlinarith
        exact le_of_mul_le_mul_right this (by omega)
      simp only
      rw [resizeSize_eq, if_neg (by omega), if_neg (by omega), if_neg (by omega), if_neg (by omega), if_neg (by omega)]
      simp only; omega
    · obtain ⟨b1, b2⟩ := divr_bracket hw ha' hh hb' (n := a) (by omega) (by omega)
      have t0 := divr_nonneg hw (by omega) hh (by omega) (n := a) (by omega) (by omega)
      generalize toInt (div (ofInt a) (div (ofInt (k * a)) (ofInt (k * b)))) = t at *
      have tl : t ≤ b := by
        have : t * (k * a) ≤ b * (k * a) := by nlinarith
        exact le_of_mul_le_mul_right this (by omega)
      have tg : b ≤ t + 1 := by
        have : b * (k * a) ≤ (t + 1) * (k * a) := by nlinarith
        exact le_of_mul_le_mul_right this (by omega)
      simp only
      rw [resizeSize_eq, if_neg (by omega), if_neg (by omega), if_neg (by omega), if_neg (by omega)]
      split
      · rename_i ht
        subst ht
        have := auto_le hh (by omega) hw (by omega) (n := a) (m := 1) (by omega) (by omega) (by omega) (by norm_num) (by simpa using b2)
        have := autoSide_pos (div (mul (ofInt a) (ofInt (k * b))) (ofInt (k * a)))
        simp only; omega
      · simp only; omega

theorem box_prod {w h nw nh : Int} (lower : Bool) (hw : 1 ≤ w) (hw' : w ≤ 2 ^ 16) (hh : 1 ≤ h) (hh' : h ≤ 2 ^ 16)
    (h1 : 1 ≤ nw) (h1' : nw ≤ 2 ^ 16) (h2 : 1 ≤ nh) (h2' : nh ≤ 2 ^ 16) :
    (boxSize w h nw nh lower).1 * (boxSize w h nw nh lower).2 ≤ 2 ^ 48 := by
  have key : ∀ {n t x y : Int}, 1 ≤ n → n ≤ 2 ^ 16 → 1 ≤ x → x ≤ 2 ^ 16 → 1 ≤ y → 0 ≤ t → t * y ≤ n * x → t * n ≤ 2 ^ 48 := by
    intro n t x y n1 n2 x1 x2 y1 t0 hle
    have a : t ≤ n * x := by nlinarith
    have b : n * x ≤ 2 ^ 16 * 2 ^ 16 := mul_le_mul n2 x2 (by omega) (by norm_num)
    have c : t * n ≤ (2 ^ 16 * 2 ^ 16) * 2 ^ 16 := mul_le_mul (le_trans a b) n2 (by omega) (by norm_num)
    norm_num at c ⊢; exact c
  have m := key h2 h2' hw hw' hh (mulr_nonneg hw (by omega) hh (by omega) (n := nh) (by omega) (by omega)) (mulr_bracket hw (by omega) hh (by omega) (n := nh) (by omega) (by omega)).1
  have d := key h1 h1' hh hh' hw (divr_nonneg hw (by omega) hh (by omega) (n := nw) (by omega) (by omega)) (divr_bracket hw (by omega) hh (by omega) (n := nw) (by omega) (by omega)).1
  rw [mul_comm] at d
  unfold boxSize
  simp only
  repeat' split
  all_goals first | exact m | exact d

theorem limit_holds {w h nw nh maxPixel : Int} (lower : Bool) (hw : 1 ≤ w) (hw' : w ≤ 2 ^ 16) (hh : 1 ≤ h) (hh' : h ≤ 2 ^ 16)
    (h1 : 1 ≤ nw) (h1' : nw ≤ 2 ^ 16) (h2 : 1 ≤ nh) (h2' : nh ≤ 2 ^ 16) (hL : 1 ≤ maxPixel) :
    (scaleSize w h nw nh maxPixel lower).1 * (scaleSize w h nw nh maxPixel lower).2 ≤ maxPixel ∨
      (scaleSize w h nw nh maxPixel lower).1 ≤ 2 ∨ (scaleSize w h nw nh maxPixel lower).2 ≤ 2 := by
  have hp := box_prod lower hw hw' hh hh' h1 h1' h2 h2'
  have hn := box_near hw (by omega) hh (by omega) h1 (by omega) h2 (by omega) lower
  obtain ⟨n1, n2⟩ := box_nonneg hw (by omega) hh (by omega) h1 (by omega) h2 (by omega) lower
  unfold scaleSize
  rw [ratioSize_eq (by omega) (by omega)]
  generalize boxSize w h nw nh lower = p at *
  obtain ⟨a, b⟩ := p
  simp only at *
  have hp0 : 0 ≤ a * b := mul_nonneg n1 n2
  rw [wrap_id (by omega) (by omega)]
  by_cases hc : 0 < maxPixel ∧ maxPixel < a * b
  · rw [if_pos hc]
    exact limit_le hw hw' hh hh' n1 n2 hp hL hc.2 hn rfl
  · rw [if_neg hc]
    simp only
    rw [resizeSize_eq, if_neg (by omega)]
    by_cases hz : a = 0 ∧ b = 0
    · rw [if_pos hz]; left; simp; omega
    · rw [if_neg hz, if_neg (by omega)]
      by_cases ha : a = 0
      · subst ha
        rw [if_pos rfl]
        right; left
        simp only
        have hb1 : b * w ≤ 1 * h := by
          rcases hn with ⟨_, hn⟩ | ⟨hn, _⟩
          · simpa using hn
          · nlinarith
        have hb2 : b ≤ 2 ^ 31 := by nlinarith
        have := auto_le hw (by omega) hh (by omega) n2 hb2 (le_refl _) (by norm_num) hb1
        omega
      · rw [if_neg ha]
        by_cases hb : b = 0
        · subst hb
          rw [if_pos rfl]
          right; right
          simp only
          have ha1 : a * h ≤ 1 * w := by
            rcases hn with ⟨hn, _⟩ | ⟨_, hn⟩
            · nlinarith
            · simpa using hn
          have ha2 : a ≤ 2 ^ 31 := by nlinarith
          have := auto_le hh (by omega) hw (by omega) n1 ha2 (le_refl _) (by norm_num) ha1
          omega
        · rw [if_neg hb]
          left
          simp only; omega

end Gofer.Image
