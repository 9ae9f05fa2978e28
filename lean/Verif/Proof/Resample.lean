import Verif.Model.Resample
import Verif.Spec.Resample
import Verif.Proof.ImageTr
import Mathlib.Algebra.Order.Ring.Pow
/-! Sums of rounded numbers, for `Verif/Props/Resample.lean`. -/
namespace Gofer.Resample
open Gofer.Image Gofer.F64 Gofer.ImageTr
open Gofer.Spec.Picture

/-- What one rounding leaves of a number. -/
def keep : ℚ := 1 - 1 / 2 ^ 53

theorem keep_pos : 0 < keep := by norm_num [keep]
theorem keep_le : keep ≤ 1 := by norm_num [keep]
theorem keep_pow_pos (k : Nat) : 0 < keep ^ k := pow_pos keep_pos k
theorem keep_pow_le (k : Nat) : keep ^ k ≤ 1 := pow_le_one₀ keep_pos.le keep_le

/-- `p` is `q` up to `k` roundings. -/
def Near (k : Nat) (p q : ℚ) : Prop := q * keep ^ k ≤ p ∧ p * keep ^ k ≤ q

theorem near_refl (q : ℚ) : Near 0 q q := by simp [Near]

theorem near_rnd {q : ℚ} (h : 0 ≤ q) : Near 1 (rnd q) q := by
  obtain ⟨a, b⟩ := rnd_bounds h
  refine ⟨by simpa [keep] using a, ?_⟩
  have : rnd q * keep ≤ q * (1 + 1 / 2 ^ 53) * keep := mul_le_mul_of_nonneg_right b keep_pos.le
  rw [pow_one]
  refine this.trans ?_
  have : (1 + 1 / 2 ^ 53) * keep ≤ 1 := by norm_num [keep]
  nlinarith

theorem near_trans {j k : Nat} {p q r : ℚ} (h1 : Near j p q) (h2 : Near k q r) : Near (j + k) p r := by
  refine ⟨?_, ?_⟩
  · calc r * keep ^ (j + k) = r * keep ^ k * keep ^ j := by ring
      _ ≤ q * keep ^ j := mul_le_mul_of_nonneg_right h2.1 (keep_pow_pos j).le
      _ ≤ p := h1.1
  · calc p * keep ^ (j + k) = p * keep ^ j * keep ^ k := by ring
      _ ≤ q * keep ^ k := mul_le_mul_of_nonneg_right h1.2 (keep_pow_pos k).le
      _ ≤ r := h2.2

theorem near_symm {k : Nat} {p q : ℚ} (h : Near k p q) : Near k q p := ⟨h.2, h.1⟩

theorem near_nonneg {k : Nat} {p q : ℚ} (h : Near k p q) (hq : 0 ≤ q) : 0 ≤ p := (mul_nonneg hq (keep_pow_pos k).le).trans h.1

theorem near_pos {k : Nat} {p q : ℚ} (h : Near k p q) (hq : 0 < q) : 0 < p := (mul_pos hq (keep_pow_pos k)).trans_le h.1

theorem near_zero {k : Nat} {p q : ℚ} (h : Near k p q) (hq : 0 ≤ q) : p = 0 ↔ q = 0 := by
  constructor
  · intro e
    by_contra hne
    exact absurd e (near_pos h (lt_of_le_of_ne hq (Ne.symm hne))).ne'
  · rintro rfl
    have h1 := h.1; have h2 := h.2
    have := keep_pow_pos k
    nlinarith

theorem near_mono {j k : Nat} (hjk : j ≤ k) {p q : ℚ} (hq : 0 ≤ q) (h : Near j p q) : Near k p q := by
  have hp := near_nonneg h hq
  have : keep ^ k ≤ keep ^ j := pow_le_pow_of_le_one keep_pos.le keep_le hjk
  exact ⟨(mul_le_mul_of_nonneg_left this hq).trans h.1, (mul_le_mul_of_nonneg_left this hp).trans h.2⟩

theorem near_add {k : Nat} {p q p' q' : ℚ} (h : Near k p q) (h' : Near k p' q') : Near k (p + p') (q + q') := by
  refine ⟨?_, ?_⟩
  · rw [add_mul]; exact add_le_add h.1 h'.1
  · rw [add_mul]; exact add_le_add h.2 h'.2

theorem near_mul {j k : Nat} {p q p' q' : ℚ} (h : Near j p q) (h' : Near k p' q') (hq : 0 ≤ q) (hq' : 0 ≤ q') : Near (j + k) (p * p') (q * q') := by
  have hp := near_nonneg h hq
  have hp' := near_nonneg h' hq'
  refine ⟨?_, ?_⟩
  · calc q * q' * keep ^ (j + k) = (q * keep ^ j) * (q' * keep ^ k) := by ring
      _ ≤ p * p' := mul_le_mul h.1 h'.1 (mul_nonneg hq' (keep_pow_pos k).le) hp
  · calc p * p' * keep ^ (j + k) = (p * keep ^ j) * (p' * keep ^ k) := by ring
      _ ≤ q * q' := mul_le_mul h.2 h'.2 (mul_nonneg hp' (keep_pow_pos k).le) hq

theorem near_inv {k : Nat} {p q : ℚ} (h : Near k p q) (hq : 0 < q) : Near k (1 / p) (1 / q) := by
  have hp := near_pos h hq
  refine ⟨?_, ?_⟩
  · rw [div_mul_eq_mul_div, one_mul, div_le_div_iff₀ hq hp]
    linarith [h.2]
  · rw [div_mul_eq_mul_div, one_mul, div_le_div_iff₀ hp hq]
    linarith [h.1]

/-- Adding up one by one, rounding every time. -/
theorem near_fold {α : Type} (f g : α → ℚ) (j : Nat) (l : List α) (h : ∀ x ∈ l, 0 ≤ g x ∧ Near j (f x) (g x)) :
    ∀ s k, 0 ≤ s → ∀ s', Near (k + j) s' s → Near (k + j + l.length) (l.foldl (fun s x => rnd (s + f x)) s') (s + (l.map g).sum) := by
  induction l with
  | nil => intro s k _ s' hs; simpa using hs
  | cons a l ih =>
    intro s k h0 s' hs
    obtain ⟨ga, na⟩ := h a (by simp)
    rw [List.foldl_cons, List.map_cons, List.sum_cons, ← add_assoc]
    have n1 : Near (k + j) (s' + f a) (s + g a) := near_add hs (near_mono (by omega) ga na)
    have p1 : 0 ≤ s' + f a := near_nonneg n1 (by linarith)
    have n2 := near_trans (near_rnd p1) n1
    have := ih (fun x hx => h x (by simp [hx])) (s + g a) (k + 1) (by linarith) (rnd (s' + f a)) (by rw [show k + 1 + j = 1 + (k + j) by omega]; exact n2)
    rw [show k + j + (a :: l).length = k + 1 + j + l.length by simp; omega]
    exact this

theorem near_sum {α : Type} (f g : α → ℚ) (j : Nat) (l : List α) (h : ∀ x ∈ l, 0 ≤ g x ∧ Near j (f x) (g x)) :
    Near (j + l.length) (l.foldl (fun s x => rnd (s + f x)) 0) ((l.map g).sum) := by
  have := near_fold f g j l h 0 0 (le_refl _) 0 (by rw [Near]; simp)
  simpa using this

/-! ## The sums of a line -/

/-- The channel of the sums. -/
def Acc.of (s : Acc) : Channel → ℚ
  | .red => s.r
  | .green => s.g
  | .blue => s.b

theorem gather_a (line : Int → Colour) (ws : List (Int × ℚ)) :
    (gather line ws).a = ws.foldl (fun s w => rnd (s + mul ((line w.1).a.toNat : Int) w.2)) 0 := by
  have : ∀ s : Acc, (ws.foldl (fun s w => s.add (line w.1) w.2) s).a = ws.foldl (fun s w => rnd (s + mul ((line w.1).a.toNat : Int) w.2)) s.a := by
    induction ws with
    | nil => intro s; rfl
    | cons w ws ih => intro s; rw [List.foldl_cons, List.foldl_cons, ih]; rfl
  exact this {}

theorem gather_of (k : Channel) (line : Int → Colour) (ws : List (Int × ℚ)) :
    (gather line ws).of k =
      ws.foldl (fun s w => rnd (s + mul (((line w.1).of k : Nat) : Int) (mul ((line w.1).a.toNat : Int) w.2))) 0 := by
  have : ∀ s : Acc, (ws.foldl (fun s w => s.add (line w.1) w.2) s).of k =
      ws.foldl (fun s w => rnd (s + mul (((line w.1).of k : Nat) : Int) (mul ((line w.1).a.toNat : Int) w.2))) (s.of k) := by
    induction ws with
    | nil => intro s; rfl
    | cons w ws ih => intro s; rw [List.foldl_cons, List.foldl_cons, ih]; cases k <;> rfl
  have h := this {}
  cases k <;> exact h

theorem out_of (k : Channel) (s : Acc) (a : ℚ) (h : s.a ≠ 0) : (s.out a).of k = (clamp8 (mul (s.of k) (div 1 s.a))).toNat := by
  unfold Acc.out
  rw [if_neg h]
  cases k <;> rfl

/-- The exact sums. -/
def exactA (line : Int → Colour) (ws : List (Int × ℚ)) : ℚ := (ws.map fun w => ((line w.1).a.toNat : ℚ) * w.2).sum
def exactC (k : Channel) (line : Int → Colour) (ws : List (Int × ℚ)) : ℚ :=
  (ws.map fun w => ((line w.1).of k : ℚ) * (((line w.1).a.toNat : ℚ) * w.2)).sum

theorem near_a {line : Int → Colour} {ws : List (Int × ℚ)} (h : ∀ w ∈ ws, 0 ≤ w.2) : Near (1 + ws.length) (gather line ws).a (exactA line ws) := by
  rw [gather_a]
  refine near_sum _ _ 1 ws fun w hw => ?_
  have : (0 : ℚ) ≤ ((line w.1).a.toNat : ℚ) * w.2 := mul_nonneg (by positivity) (h w hw)
  refine ⟨this, ?_⟩
  unfold mul
  push_cast
  exact near_rnd this

theorem near_c (k : Channel) {line : Int → Colour} {ws : List (Int × ℚ)} (h : ∀ w ∈ ws, 0 ≤ w.2) :
    Near (2 + ws.length) ((gather line ws).of k) (exactC k line ws) := by
  rw [gather_of]
  refine near_sum _ _ 2 ws fun w hw => ?_
  have h0 : (0 : ℚ) ≤ ((line w.1).a.toNat : ℚ) * w.2 := mul_nonneg (by positivity) (h w hw)
  have h1 : (0 : ℚ) ≤ ((line w.1).of k : ℚ) * (((line w.1).a.toNat : ℚ) * w.2) := mul_nonneg (by positivity) h0
  refine ⟨h1, ?_⟩
  unfold mul
  push_cast
  have n1 : Near 1 (((line w.1).of k : ℚ) * rnd (((line w.1).a.toNat : ℚ) * w.2)) (((line w.1).of k : ℚ) * (((line w.1).a.toNat : ℚ) * w.2)) := by
    have := near_mul (near_refl ((line w.1).of k : ℚ)) (near_rnd h0) (by positivity) h0
    simpa using this
  exact near_trans (near_rnd (near_nonneg n1 h1)) n1

theorem exactA_nonneg {line : Int → Colour} {ws : List (Int × ℚ)} (h : ∀ w ∈ ws, 0 ≤ w.2) : 0 ≤ exactA line ws := by
  apply List.sum_nonneg
  simp only [List.mem_map]
  rintro _ ⟨w, hw, rfl⟩
  exact mul_nonneg (by positivity) (h w hw)

theorem exactC_bounds (k : Channel) {line : Int → Colour} {ws : List (Int × ℚ)} (h : ∀ w ∈ ws, 0 ≤ w.2) {lo hi : Nat}
    (hb : ∀ w ∈ ws, (line w.1).a ≠ 0 → lo ≤ (line w.1).of k ∧ (line w.1).of k ≤ hi) :
    lo * exactA line ws ≤ exactC k line ws ∧ exactC k line ws ≤ hi * exactA line ws := by
  induction ws with
  | nil => simp [exactA, exactC]
  | cons w ws ih =>
    obtain ⟨i1, i2⟩ := ih (fun w hw => h w (by simp [hw])) (fun w hw => hb w (by simp [hw]))
    have h0 := h w (by simp)
    have hw := hb w (by simp)
    unfold exactA exactC at *
    simp only [List.map_cons, List.sum_cons]
    by_cases ha : (line w.1).a = 0
    · rw [ha]; simpa using ⟨i1, i2⟩
    · obtain ⟨b1, b2⟩ := hw ha
      have hq : (0 : ℚ) ≤ ((line w.1).a.toNat : ℚ) * w.2 := mul_nonneg (by positivity) h0
      have c1 : (lo : ℚ) ≤ (line w.1).of k := by exact_mod_cast b1
      have c2 : ((line w.1).of k : ℚ) ≤ hi := by exact_mod_cast b2
      have d1 := mul_le_mul_of_nonneg_right c1 hq
      have d2 := mul_le_mul_of_nonneg_right c2 hq
      constructor <;> linarith

theorem exactA_bounds {line : Int → Colour} {ws : List (Int × ℚ)} (h : ∀ w ∈ ws, 0 ≤ w.2) {lo hi : Nat}
    (hb : ∀ w ∈ ws, lo ≤ (line w.1).a.toNat ∧ (line w.1).a.toNat ≤ hi) :
    lo * (ws.map Prod.snd).sum ≤ exactA line ws ∧ exactA line ws ≤ hi * (ws.map Prod.snd).sum := by
  induction ws with
  | nil => simp [exactA]
  | cons w ws ih =>
    obtain ⟨i1, i2⟩ := ih (fun w hw => h w (by simp [hw])) (fun w hw => hb w (by simp [hw]))
    have h0 := h w (by simp)
    obtain ⟨b1, b2⟩ := hb w (by simp)
    unfold exactA at *
    simp only [List.map_cons, List.sum_cons]
    have c1 : (lo : ℚ) ≤ (line w.1).a.toNat := by exact_mod_cast b1
    have c2 : ((line w.1).a.toNat : ℚ) ≤ hi := by exact_mod_cast b2
    have d1 := mul_le_mul_of_nonneg_right c1 h0
    have d2 := mul_le_mul_of_nonneg_right c2 h0
    constructor <;> linarith

/-! ## Back to bytes -/

theorem keep_pow_big {k : Nat} (h : k ≤ 2 ^ 42) : 1 - 1 / 2 ^ 11 ≤ keep ^ k := by
  have b := one_add_mul_le_pow (a := (-(1 / 2 ^ 53) : ℚ)) (by norm_num) k
  have e : keep = 1 + -(1 / 2 ^ 53) := by norm_num [keep]
  rw [e]
  refine le_trans ?_ b
  have : (k : ℚ) ≤ 4398046511104 := by exact_mod_cast h
  linarith

theorem clamp8_near {x : ℚ} {lo hi : Nat} (hh : hi ≤ 255) (h1 : (lo : ℚ) - 1 / 4 ≤ x) (h2 : x ≤ hi + 1 / 4) :
    lo ≤ (clamp8 x).toNat ∧ (clamp8 x).toNat ≤ hi := by
  have hq : (hi : ℚ) ≤ 255 := by exact_mod_cast hh
  have l0 : (0 : ℚ) ≤ lo := by positivity
  obtain ⟨c1, c2⟩ := rnd_close (q := x + 1 / 2) (by linarith) (by linarith)
  have p0 : 0 ≤ rnd (x + 1 / 2) := rnd_nonneg (by linarith)
  unfold clamp8
  generalize rnd (x + 1 / 2) = y at *
  obtain ⟨t1, t2⟩ := toInt_near p0
  have t0 := toInt_nonneg p0
  simp only
  generalize toInt y = v at *
  have v1 : v ≤ hi := by
    have : (v : ℚ) < (hi : ℚ) + 1 := by norm_num at *; linarith
    have : v < (hi : Int) + 1 := by exact_mod_cast this
    omega
  have v2 : (lo : Int) ≤ v := by
    have : (lo : ℚ) < (v : ℚ) + 1 := by norm_num at *; linarith
    have : (lo : Int) < v + 1 := by exact_mod_cast this
    omega
  rw [if_neg (by omega)]
  split
  · obtain ⟨n, rfl⟩ := Int.eq_ofNat_of_zero_le t0
    have : (UInt8.ofInt (n : Int)).toNat = n := by
      unfold UInt8.ofInt
      rw [UInt8.toNat_ofNat']
      omega
    omega
  · simp only [UInt8.toNat_zero]; omega

theorem clamp8_of_near {x q : ℚ} {k lo hi : Nat} (hk : k ≤ 2 ^ 42) (hh : hi ≤ 255) (hn : Near k x q) (h1 : (lo : ℚ) ≤ q) (h2 : q ≤ hi) :
    lo ≤ (clamp8 x).toNat ∧ (clamp8 x).toNat ≤ hi := by
  have hq : (hi : ℚ) ≤ 255 := by exact_mod_cast hh
  have l0 : (0 : ℚ) ≤ lo := by positivity
  have hx := near_nonneg hn (l0.trans h1)
  have kb := keep_pow_big hk
  obtain ⟨n1, n2⟩ := hn
  apply clamp8_near hh
  · have : q * (1 - 1 / 2 ^ 11) ≤ x := (mul_le_mul_of_nonneg_left kb (l0.trans h1)).trans n1
    linarith
  · have : x * (1 - 1 / 2 ^ 11) ≤ q := (mul_le_mul_of_nonneg_left kb hx).trans n2
    linarith

/-- One pixel: the channels. -/
theorem out_channel (k : Channel) {line : Int → Colour} {ws : List (Int × ℚ)} (h : ∀ w ∈ ws, 0 ≤ w.2) (hn : ws.length ≤ 2 ^ 40) {lo hi : Nat}
    (hh : hi ≤ 255) (hb : ∀ w ∈ ws, (line w.1).a ≠ 0 → lo ≤ (line w.1).of k ∧ (line w.1).of k ≤ hi) (a : ℚ)
    (hs : (gather line ws).a ≠ 0) : lo ≤ ((gather line ws).out a).of k ∧ ((gather line ws).out a).of k ≤ hi := by
  rw [out_of k _ a hs]
  have na := near_a (line := line) h
  have nc := near_c k (line := line) h
  have a0 := exactA_nonneg (line := line) h
  have ap : 0 < exactA line ws := lt_of_le_of_ne a0 fun e => hs ((near_zero na a0).2 e.symm)
  obtain ⟨b1, b2⟩ := exactC_bounds k (line := line) h hb
  have c0 : 0 ≤ exactC k line ws := (mul_nonneg (by positivity) a0).trans b1
  have sp := near_pos na ap
  have n1 : Near (1 + (1 + ws.length)) (div 1 (gather line ws).a) (1 / exactA line ws) :=
    near_trans (near_rnd (by positivity)) (near_inv na ap)
  have i0 : 0 ≤ 1 / exactA line ws := by positivity
  have n2 := near_mul nc n1 c0 i0
  have n3 := near_trans (near_rnd (near_nonneg n2 (mul_nonneg c0 i0))) n2
  refine clamp8_of_near (k := 1 + (2 + ws.length + (1 + (1 + ws.length)))) (by omega) hh n3 ?_ ?_
  · rw [mul_one_div, le_div_iff₀ ap]; exact b1
  · rw [mul_one_div, div_le_iff₀ ap]; exact b2

theorem near_map {α : Type} (f g : α → ℚ) (k : Nat) (l : List α) (h : ∀ x ∈ l, Near k (f x) (g x)) : Near k ((l.map f).sum) ((l.map g).sum) := by
  induction l with
  | nil => simp [Near]
  | cons a l ih =>
    rw [List.map_cons, List.map_cons, List.sum_cons, List.sum_cons]
    exact near_add (h a (by simp)) (ih fun x hx => h x (by simp [hx]))

theorem sum_scaled {α : Type} (g : α → ℚ) (c : ℚ) (l : List α) : (l.map fun x => g x * c).sum = (l.map g).sum * c := by
  induction l with
  | nil => simp
  | cons a l ih => rw [List.map_cons, List.map_cons, List.sum_cons, List.sum_cons, ih, add_mul]

theorem near_total {ws : List (Int × ℚ)} (h : ∀ w ∈ ws, 0 ≤ w.2) : Near ws.length (total ws) (ws.map Prod.snd).sum := by
  have := near_sum (fun w : Int × ℚ => w.2) Prod.snd 0 ws fun w hw => ⟨h w hw, near_refl _⟩
  rwa [zero_add] at this

/-- The opacity of one pixel, if the sums are scaled. -/
theorem alpha_bounds {line : Int → Colour} {ws : List (Int × ℚ)} (h : ∀ w ∈ ws, 0 ≤ w.2) (hn : ws.length ≤ 2 ^ 40) (hp : 0 < (ws.map Prod.snd).sum)
    {lo hi : Nat} (hh : hi ≤ 255) (hb : ∀ w ∈ ws, lo ≤ (line w.1).a.toNat ∧ (line w.1).a.toNat ≤ hi) {x : ℚ} {k : Nat} (hk : k ≤ 2 * ws.length + 9)
    (hx : Near k x (exactA line ws / (ws.map Prod.snd).sum)) : lo ≤ (clamp8 x).toNat ∧ (clamp8 x).toNat ≤ hi := by
  obtain ⟨b1, b2⟩ := exactA_bounds (line := line) h hb
  refine clamp8_of_near (k := k) (by omega) hh hx ?_ ?_
  · rw [le_div_iff₀ hp]; exact b1
  · rw [div_le_iff₀ hp]; exact b2

theorem exactA_zero {line : Int → Colour} {ws : List (Int × ℚ)} (h : ∀ w ∈ ws, 0 ≤ w.2) (hp : 0 < (ws.map Prod.snd).sum) {lo hi : Nat}
    (hb : ∀ w ∈ ws, lo ≤ (line w.1).a.toNat ∧ (line w.1).a.toNat ≤ hi) (h0 : exactA line ws = 0) : lo = 0 := by
  obtain ⟨b1, -⟩ := exactA_bounds (line := line) h hb
  rw [h0] at b1
  have : (0 : ℚ) ≤ lo := by positivity
  have : (lo : ℚ) = 0 := by nlinarith
  exact_mod_cast this

/-- Blurring. -/
theorem out_alpha_blur {line : Int → Colour} {ws : List (Int × ℚ)} (h : ∀ w ∈ ws, 0 ≤ w.2) (hn : ws.length ≤ 2 ^ 40) (hp : 0 < (ws.map Prod.snd).sum)
    {lo hi : Nat} (hh : hi ≤ 255) (hb : ∀ w ∈ ws, lo ≤ (line w.1).a.toNat ∧ (line w.1).a.toNat ≤ hi) :
    lo ≤ ((gather line ws).out (div (gather line ws).a (total ws))).a.toNat ∧ ((gather line ws).out (div (gather line ws).a (total ws))).a.toNat ≤ hi := by
  have na := near_a (line := line) h
  have a0 := exactA_nonneg (line := line) h
  unfold Acc.out
  split
  · rename_i hs
    have := exactA_zero (line := line) h hp hb ((near_zero na a0).1 hs)
    simp [this]
  · have n1 := near_mul na (near_inv (near_total h) hp) a0 (by positivity)
    rw [mul_one_div, mul_one_div] at n1
    have n2 := near_trans (near_rnd (near_nonneg n1 (by positivity))) n1
    exact alpha_bounds h hn hp hh hb (k := 1 + (1 + ws.length + ws.length)) (by omega) n2

/-- Resampling: the weights are divided by their sum first. -/
theorem out_alpha_resize {line : Int → Colour} {ws : List (Int × ℚ)} (h : ∀ w ∈ ws, 0 ≤ w.2) (hn : ws.length ≤ 2 ^ 40) (hp : 0 < (ws.map Prod.snd).sum)
    {lo hi : Nat} (hh : hi ≤ 255) (hb : ∀ w ∈ ws, lo ≤ (line w.1).a.toNat ∧ (line w.1).a.toNat ≤ hi) :
    lo ≤ ((gather line (ws.map fun w => (w.1, div w.2 (total ws)))).out (gather line (ws.map fun w => (w.1, div w.2 (total ws)))).a).a.toNat ∧
      ((gather line (ws.map fun w => (w.1, div w.2 (total ws)))).out (gather line (ws.map fun w => (w.1, div w.2 (total ws)))).a).a.toNat ≤ hi := by
  have a0 := exactA_nonneg (line := line) h
  have tp : 0 < total ws := near_pos (near_total h) hp
  have h' : ∀ w ∈ ws.map (fun w : Int × ℚ => (w.1, div w.2 (total ws))), 0 ≤ w.2 := by
    simp only [List.mem_map]
    rintro _ ⟨w, hw, rfl⟩
    exact rnd_nonneg (div_nonneg (h w hw) tp.le)
  have na := near_a (line := line) h'
  rw [List.length_map] at na
  have n1 : Near 1 (exactA line (ws.map fun w => (w.1, div w.2 (total ws)))) (exactA line ws * (1 / total ws)) := by
    unfold exactA
    rw [List.map_map, ← sum_scaled]
    refine near_map _ _ 1 ws fun w hw => ?_
    have q0 : 0 ≤ w.2 / total ws := div_nonneg (h w hw) tp.le
    have := near_mul (near_refl ((line w.1).a.toNat : ℚ)) (near_rnd q0) (by positivity) q0
    rw [show ((line w.1).a.toNat : ℚ) * w.2 * (1 / total ws) = ((line w.1).a.toNat : ℚ) * (w.2 / total ws) by ring]
    simpa [div] using this
  have n2 := near_mul (near_refl (exactA line ws)) (near_inv (near_total h) hp) a0 (by positivity)
  rw [mul_one_div (exactA line ws) ((ws.map Prod.snd).sum)] at n2
  have n3 := near_trans na (near_trans n1 n2)
  unfold Acc.out
  split
  · rename_i hs
    have q0 : 0 ≤ exactA line ws / (ws.map Prod.snd).sum := by positivity
    have e := (near_zero n3 q0).1 hs
    rw [div_eq_zero_iff, or_iff_left hp.ne'] at e
    have := exactA_zero (line := line) h hp hb e
    simp [this]
  · exact alpha_bounds h hn hp hh hb (k := 1 + ws.length + (1 + (0 + ws.length))) (by omega) n3

/-! ## The weights -/

theorem rnd_half {m : Int} (h1 : -2 ^ 53 ≤ m) (h2 : m ≤ 2 ^ 53) : rnd ((m : ℚ) / 2) = m / 2 := by
  rcases lt_trichotomy m 0 with h | h | h
  · have hp : (0 : ℚ) < ((-m : Int) : ℚ) := by exact_mod_cast (by omega : 0 < -m)
    have := rnd_scale hp (-1)
    rw [rnd_int (by omega) (by omega), pow2_eq] at this
    have e : ((-m : Int) : ℚ) * (2 : ℚ) ^ (-1 : Int) = -((m : ℚ) / 2) := by push_cast; norm_num; ring
    rw [e, rnd_neg] at this
    linarith
  · subst h; simp [rnd_zero]
  · have hp : (0 : ℚ) < (m : ℚ) := by exact_mod_cast h
    have := rnd_scale hp (-1)
    rw [rnd_int (by omega) (by omega), pow2_eq] at this
    have e : (m : ℚ) * (2 : ℚ) ^ (-1 : Int) = (m : ℚ) / 2 := by norm_num; ring
    rwa [e] at this

theorem rnd_le_half {q : ℚ} {m : Int} (h1 : -2 ^ 53 ≤ m) (h2 : m ≤ 2 ^ 53) (h : q ≤ m / 2) : rnd q ≤ m / 2 := by
  rw [← rnd_half h1 h2]; exact rnd_mono h

theorem half_le_rnd {q : ℚ} {m : Int} (h1 : -2 ^ 53 ≤ m) (h2 : m ≤ 2 ^ 53) (h : (m : ℚ) / 2 ≤ q) : (m : ℚ) / 2 ≤ rnd q := by
  rw [← rnd_half h1 h2]; exact rnd_mono h

/-- Sizes that are considered. -/
def Fits (n : Int) : Prop := 1 ≤ n ∧ n ≤ 2 ^ 40

theorem ofInt_fits {n : Int} (h1 : -2 ^ 40 ≤ n) (h2 : n ≤ 2 ^ 40) : ofInt n = n := rnd_int (by omega) (by omega)

theorem step_pos {dst src : Int} (hd : Fits dst) (hs : Fits src) : 0 < stepOf dst src := by
  unfold stepOf
  rw [ofInt_fits (by have := hs.1; omega) hs.2, ofInt_fits (by have := hd.1; omega) hd.2]
  have a : (0 : ℚ) < src := by exact_mod_cast (by have := hs.1; omega : 0 < src)
  have b : (0 : ℚ) < dst := by exact_mod_cast (by have := hd.1; omega : 0 < dst)
  exact rnd_pos (div_pos a b)

/-- The place in the source of the centre of a pixel of the result. -/
theorem place_bounds {dst src v : Int} (hd : Fits dst) (hs : Fits src) (h0 : 0 ≤ v) (h1 : v < dst) :
    0 ≤ mul (rnd (ofInt v + 1 / 2)) (stepOf dst src) ∧ mul (rnd (ofInt v + 1 / 2)) (stepOf dst src) ≤ src * (1 - 1 / 2 ^ 42) ∧
      Near 2 (mul (rnd (ofInt v + 1 / 2)) (stepOf dst src)) ((2 * v + 1) * src / (2 * dst)) := by
  obtain ⟨d1, d2⟩ := hd
  obtain ⟨s1, s2⟩ := hs
  have e : rnd (ofInt v + 1 / 2) = (2 * v + 1) / 2 := by
    rw [ofInt_fits (by omega) (by omega)]
    have := rnd_half (m := 2 * v + 1) (by omega) (by omega)
    push_cast at this
    rw [← this]
    congr 1
    ring
  have dq : (1 : ℚ) ≤ dst := by exact_mod_cast d1
  have dq2 : (dst : ℚ) ≤ 2 ^ 40 := by exact_mod_cast d2
  have sq : (1 : ℚ) ≤ src := by exact_mod_cast s1
  have vq : (0 : ℚ) ≤ v := by exact_mod_cast h0
  have vq1 : (v : ℚ) + 1 ≤ dst := by exact_mod_cast h1
  have r0 : (0 : ℚ) ≤ src / dst := by positivity
  have n1 : Near 1 (stepOf dst src) (src / dst) := by
    unfold stepOf
    rw [ofInt_fits (by omega) s2, ofInt_fits (by omega) d2]
    exact near_rnd r0
  have n2 := near_mul (near_refl ((2 * (v : ℚ) + 1) / 2)) n1 (by positivity) r0
  have n3 := near_trans (near_rnd (near_nonneg n2 (by positivity))) n2
  rw [show (2 * (v : ℚ) + 1) / 2 * (src / dst) = (2 * v + 1) * src / (2 * dst) by field_simp] at n3
  have hx : mul (rnd (ofInt v + 1 / 2)) (stepOf dst src) = rnd ((2 * (v : ℚ) + 1) / 2 * stepOf dst src) := by rw [e]; rfl
  rw [hx]
  refine ⟨near_nonneg n3 (by positivity), ?_, n3⟩
  have u := n3.2
  have le : (2 * (v : ℚ) + 1) * src / (2 * dst) ≤ src * (1 - 1 / 2 ^ 41) := by
    rw [div_le_iff₀ (by positivity)]
    have : 2 * (v : ℚ) + 1 ≤ 2 * dst - 1 := by linarith
    have g : 2 * (dst : ℚ) - 1 ≤ (1 - 1 / 2 ^ 41) * (2 * dst) := by linarith
    calc (2 * (v : ℚ) + 1) * src ≤ (2 * dst - 1) * src := mul_le_mul_of_nonneg_right this (by linarith)
      _ ≤ (1 - 1 / 2 ^ 41) * (2 * dst) * src := mul_le_mul_of_nonneg_right g (by linarith)
      _ = src * (1 - 1 / 2 ^ 41) * (2 * dst) := by ring
  have kp : (1 - 1 / 2 ^ 50 : ℚ) ≤ keep ^ (1 + (0 + 1)) := by norm_num [keep]
  have x0 := near_nonneg n3 (by positivity)
  generalize rnd ((2 * (v : ℚ) + 1) / 2 * stepOf dst src) = x at *
  have : x * (1 - 1 / 2 ^ 50) ≤ src * (1 - 1 / 2 ^ 41) := (mul_le_mul_of_nonneg_left kp x0).trans (u.trans le)
  by_contra hc
  rw [not_le] at hc
  have h3 : (src : ℚ) * (1 - 1 / 2 ^ 42) * (1 - 1 / 2 ^ 50) < x * (1 - 1 / 2 ^ 50) := mul_lt_mul_of_pos_right hc (by norm_num)
  have h4 : (1 - 1 / 2 ^ 41 : ℚ) ≤ (1 - 1 / 2 ^ 42) * (1 - 1 / 2 ^ 50) := by norm_num
  have h5 := mul_le_mul_of_nonneg_left h4 (show (0 : ℚ) ≤ src by linarith)
  linarith

theorem centre_bounds {dst src v : Int} (hd : Fits dst) (hs : Fits src) (h0 : 0 ≤ v) (h1 : v < dst) :
    -(1 / 2) ≤ centre dst src v ∧ centre dst src v ≤ src - 1 / 2 := by
  obtain ⟨p0, p1, -⟩ := place_bounds hd hs h0 h1
  have sq : (1 : ℚ) ≤ src := by exact_mod_cast hs.1
  obtain ⟨s1, s2⟩ := hs
  unfold centre
  constructor
  · have := half_le_rnd (q := mul (rnd (ofInt v + 1 / 2)) (stepOf dst src) - 1 / 2) (m := -1) (by norm_num) (by norm_num) (by push_cast; linarith)
    push_cast at this
    linarith
  · have := rnd_le_half (q := mul (rnd (ofInt v + 1 / 2)) (stepOf dst src) - 1 / 2) (m := 2 * src - 1) (by omega) (by omega) (by push_cast; linarith)
    push_cast at this
    linarith

/-- The pixel of the source next to the centre. -/
theorem next_pixel {dst src v : Int} (hd : Fits dst) (hs : Fits src) (h0 : 0 ≤ v) (h1 : v < dst) :
    ∃ u : Int, 0 ≤ u ∧ u < src ∧ (u : ℚ) - centre dst src v ≤ 1 / 2 ∧ -(1 / 2) ≤ (u : ℚ) - centre dst src v := by
  obtain ⟨c1, c2⟩ := centre_bounds hd hs h0 h1
  have sq : (1 : ℚ) ≤ src := by exact_mod_cast hs.1
  generalize centre dst src v = fu at *
  have f1 := floor_le' (fu + 1 / 2)
  have f2 := lt_floor' (fu + 1 / 2)
  by_cases h : (fu + 1 / 2).floor < src
  · refine ⟨(fu + 1 / 2).floor, ?_, h, by linarith, by linarith⟩
    have : (-1 : ℚ) < (fu + 1 / 2).floor := by linarith
    have : (-1 : Int) < (fu + 1 / 2).floor := by exact_mod_cast this
    omega
  · refine ⟨src - 1, by have := hs.1; omega, by omega, ?_, ?_⟩
    · have : (src : ℚ) ≤ (fu + 1 / 2).floor := by exact_mod_cast not_lt.1 h
      push_cast; linarith
    · push_cast; linarith

theorem scale_ge {dst src : Int} : 1 ≤ scaleOf dst src := by
  unfold scaleOf
  split
  · exact le_refl _
  · linarith

/-- Kernels that average: nowhere negative, and positive up to a distance of 1/2. -/
def Averaging (f : Filter) : Prop := 1 / 2 ≤ f.support ∧ ∀ x, 0 ≤ f.kernel x ∧ (-(1 / 2) ≤ x → x ≤ 1 / 2 → 0 < f.kernel x)

theorem mem_fromTo {a b u : Int} : u ∈ fromTo a b ↔ a ≤ u ∧ u ≤ b := by
  unfold fromTo
  simp only [List.mem_map, List.mem_range]
  constructor
  · rintro ⟨i, hi, rfl⟩; omega
  · rintro ⟨h1, h2⟩; exact ⟨(u - a).toNat, by omega, by omega⟩

theorem fromTo_length (a b : Int) : (fromTo a b).length = (b + 1 - a).toNat := by simp [fromTo]

theorem raw_mem {f : Filter} {dst src v : Int} {w : Int × ℚ} (h : w ∈ raw f dst src v) :
    0 ≤ w.1 ∧ w.1 < src ∧ w.2 = f.kernel (div (rnd (ofInt w.1 - centre dst src v)) (scaleOf dst src)) := by
  unfold raw at h
  simp only [List.mem_filter, List.mem_map, mem_fromTo] at h
  obtain ⟨⟨u, ⟨h1, h2⟩, rfl⟩, -⟩ := h
  refine ⟨?_, ?_, rfl⟩
  · revert h1; split <;> simp only <;> omega
  · revert h2; split <;> simp only <;> omega

theorem raw_length {f : Filter} {dst src v : Int} (hs : Fits src) : (raw f dst src v).length ≤ 2 ^ 40 := by
  unfold raw
  refine (List.length_filter_le _ _).trans ?_
  rw [List.length_map, fromTo_length]
  have := hs.2
  split <;> split <;> omega

theorem raw_nonneg {f : Filter} (hf : Averaging f) {dst src v : Int} : ∀ w ∈ raw f dst src v, 0 ≤ w.2 := by
  intro w hw
  rw [(raw_mem hw).2.2]
  exact (hf.2 _).1

theorem raw_pos {f : Filter} (hf : Averaging f) {dst src v : Int} (hd : Fits dst) (hs : Fits src) (h0 : 0 ≤ v) (h1 : v < dst) :
    0 < ((raw f dst src v).map Prod.snd).sum := by
  obtain ⟨u, u0, u1, l, r⟩ := next_pixel hd hs h0 h1
  have hs2 := hs.2
  have sc := scale_ge (dst := dst) (src := src)
  have ou : ofInt u = u := ofInt_fits (by omega) (by omega)
  have q1 : rnd (ofInt u - centre dst src v) ≤ 1 / 2 := by
    rw [ou]
    have := rnd_le_half (q := (u : ℚ) - centre dst src v) (m := 1) (by norm_num) (by norm_num) (by push_cast; linarith)
    push_cast at this; exact this
  have q2 : -(1 / 2) ≤ rnd (ofInt u - centre dst src v) := by
    rw [ou]
    have := half_le_rnd (q := (u : ℚ) - centre dst src v) (m := -1) (by norm_num) (by norm_num) (by push_cast; linarith)
    push_cast at this; linarith
  have k := (hf.2 (div (rnd (ofInt u - centre dst src v)) (scaleOf dst src))).2 (by
      have := half_le_rnd (q := rnd (ofInt u - centre dst src v) / scaleOf dst src) (m := -1) (by norm_num) (by norm_num) (by
        rw [le_div_iff₀ (by linarith)]; push_cast; linarith)
      push_cast at this; unfold div; linarith) (by
      have := rnd_le_half (q := rnd (ofInt u - centre dst src v) / scaleOf dst src) (m := 1) (by norm_num) (by norm_num) (by
        rw [div_le_iff₀ (by linarith)]; push_cast; linarith)
      push_cast at this; exact this)
  have rc : (1 : ℚ) ≤ reach f dst src := by
    unfold reach
    have : (1 / 2 : ℚ) ≤ mul (scaleOf dst src) f.support := by
      have := half_le_rnd (q := scaleOf dst src * f.support) (m := 1) (by norm_num) (by norm_num) (by
        push_cast
        have := hf.1
        nlinarith)
      push_cast at this; exact this
    have : (0 : Int) < (mul (scaleOf dst src) f.support).ceil := by
      rw [Rat.lt_ceil_iff]; push_cast; linarith
    exact_mod_cast (by omega : (1 : Int) ≤ (mul (scaleOf dst src) f.support).ceil)
  have mem : (u, f.kernel (div (rnd (ofInt u - centre dst src v)) (scaleOf dst src))) ∈ raw f dst src v := by
    unfold raw
    simp only [List.mem_filter, List.mem_map, mem_fromTo, decide_eq_true_eq]
    refine ⟨⟨u, ⟨?_, ?_⟩, rfl⟩, k.ne'⟩
    · split
      · exact u0
      · rw [Rat.ceil_le_iff]
        exact rnd_le_int (by omega) (by omega) (by linarith)
    · split
      · omega
      · rw [Rat.le_floor_iff]
        exact le_rnd_int (by omega) (by omega) (by linarith)
  have := List.single_le_sum (l := (raw f dst src v).map Prod.snd) (by
    simp only [List.mem_map]
    rintro _ ⟨w, hw, rfl⟩
    exact raw_nonneg hf w hw) _ (List.mem_map.2 ⟨_, mem, rfl⟩)
  exact k.trans_le this

theorem weights_eq {f : Filter} (hf : Averaging f) {dst src v : Int} (hd : Fits dst) (hs : Fits src) (h0 : 0 ≤ v) (h1 : v < dst) :
    weights f dst src v = (raw f dst src v).map fun w => (w.1, div w.2 (total (raw f dst src v))) := by
  unfold weights
  simp only
  rw [if_neg (near_pos (near_total (raw_nonneg hf)) (raw_pos hf hd hs h0 h1)).ne']

end Gofer.Resample
