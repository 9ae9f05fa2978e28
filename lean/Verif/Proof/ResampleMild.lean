import Verif.Proof.ResamplePic
/-!
# Filters that are negative by rounding only (Hermite, BSpline)

Near the ends of their range the kernels of these filters are differences of nearly equal numbers, and rounding may make them negative (about 2⁻⁴⁹). Sums are therefore
compared with an absolute error.
-/
namespace Gofer.Resample
open Gofer.Image Gofer.F64 Gofer.ImageTr
open Gofer.Spec.Picture

theorem rnd_abs (q : ℚ) : |rnd q - q| ≤ |q| / 2 ^ 53 := by
  rcases lt_trichotomy q 0 with h | h | h
  · have := rnd_rel (q := -q) (by linarith)
    rw [rnd_neg] at this
    rw [abs_of_neg h]
    have e : -rnd q - -q = -(rnd q - q) := by ring
    rw [e, abs_neg] at this
    exact this
  · simp [h, rnd_zero]
  · rw [abs_of_pos h]; exact rnd_rel h

/-- The sum of the absolute values. -/
def mag {α : Type} (g : α → ℚ) (l : List α) : ℚ := (l.map fun x => |g x|).sum

theorem mag_nonneg {α : Type} (g : α → ℚ) (l : List α) : 0 ≤ mag g l := by
  apply List.sum_nonneg
  simp only [List.mem_map]
  rintro _ ⟨x, -, rfl⟩
  exact abs_nonneg _

theorem mag_cons {α : Type} (g : α → ℚ) (x : α) (l : List α) : mag g (x :: l) = |g x| + mag g l := by simp [mag]

/-- Adding up with rounding. -/
theorem fold_err {α : Type} (f g : α → ℚ) (l : List α) (hl : ∀ x ∈ l, |f x - g x| ≤ |g x| / 2 ^ 51) :
    ∀ (n : Nat) (s S T : ℚ), n + l.length ≤ 2 ^ 20 → |S| ≤ T → |s - S| ≤ (1 / 2 ^ 51 + n / 2 ^ 52) * T →
      |l.foldl (fun s x => rnd (s + f x)) s - (S + (l.map g).sum)| ≤ (1 / 2 ^ 51 + ((n + l.length : Nat) : ℚ) / 2 ^ 52) * (T + mag g l) := by
  induction l with
  | nil => intro n s S T _ _ h; simpa [mag] using h
  | cons x l ih =>
    intro n s S T hn hS h
    rw [List.foldl_cons, List.map_cons, List.sum_cons, mag_cons]
    rw [List.length_cons] at hn ⊢
    have T0 : 0 ≤ T := (abs_nonneg _).trans hS
    have g0 := abs_nonneg (g x)
    have nq : (n : ℚ) ≤ 2 ^ 20 := by exact_mod_cast (by omega : n ≤ 2 ^ 20)
    have n0 : (0 : ℚ) ≤ n := by positivity
    have fx := hl x (by simp)
    have step : |(s + f x) - (S + g x)| ≤ (1 / 2 ^ 51 + n / 2 ^ 52) * (T + |g x|) := by
      have e : (s + f x) - (S + g x) = (s - S) + (f x - g x) := by ring
      rw [e]
      refine (abs_add_le _ _).trans ?_
      have : (0 : ℚ) ≤ n / 2 ^ 52 * |g x| := by positivity
      linarith
    have sz : |S + g x| ≤ T + |g x| := (abs_add_le _ _).trans (by linarith)
    have e1 : (1 / 2 ^ 51 + n / 2 ^ 52 : ℚ) ≤ 1 := by linarith
    have sf : |s + f x| ≤ 2 * (T + |g x|) := by
      have : s + f x = ((s + f x) - (S + g x)) + (S + g x) := by ring
      rw [this]
      refine (abs_add_le _ _).trans ?_
      nlinarith
    have nx : |rnd (s + f x) - (S + g x)| ≤ (1 / 2 ^ 51 + ((n + 1 : Nat) : ℚ) / 2 ^ 52) * (T + |g x|) := by
      have : rnd (s + f x) - (S + g x) = (rnd (s + f x) - (s + f x)) + ((s + f x) - (S + g x)) := by ring
      rw [this]
      refine (abs_add_le _ _).trans ?_
      have := rnd_abs (s + f x)
      push_cast
      linarith
    have := ih (fun y hy => hl y (by simp [hy])) (n + 1) (rnd (s + f x)) (S + g x) (T + |g x|) (by omega) sz nx
    have e2 : n + 1 + l.length = n + (l.length + 1) := by omega
    rw [e2] at this
    rw [← add_assoc S, ← add_assoc T]
    exact this

theorem fold_close {α : Type} (f g : α → ℚ) (l : List α) (hn : l.length ≤ 2 ^ 19) (hl : ∀ x ∈ l, |f x - g x| ≤ |g x| / 2 ^ 51) :
    |l.foldl (fun s x => rnd (s + f x)) 0 - (l.map g).sum| ≤ mag g l / 2 ^ 32 := by
  have h := fold_err f g l hl 0 0 0 0 (by omega) (by simp) (by simp)
  rw [zero_add, zero_add, zero_add] at h
  have nq : (l.length : ℚ) ≤ 2 ^ 19 := by exact_mod_cast hn
  have := mag_nonneg g l
  refine h.trans ?_
  nlinarith

theorem sum_ge {α : Type} (c w : α → ℚ) (K e : ℚ) (he : 0 ≤ e) (l : List α) (h : ∀ x ∈ l, 0 ≤ c x ∧ c x ≤ K ∧ -e ≤ w x) :
    -(l.length * (K * e)) ≤ (l.map fun x => c x * w x).sum := by
  induction l with
  | nil => simp
  | cons x l ih =>
    obtain ⟨h1, h2, h3⟩ := h x (by simp)
    have := ih fun y hy => h y (by simp [hy])
    rw [List.map_cons, List.sum_cons, List.length_cons]
    push_cast
    have : -(K * e) ≤ c x * w x := by
      have a := mul_le_mul_of_nonneg_left h3 h1
      have b := mul_le_mul_of_nonneg_right h2 he
      linarith
    linarith

theorem mag_le {α : Type} (c w : α → ℚ) (K : ℚ) (l : List α) (h : ∀ x ∈ l, |c x| ≤ K) : mag (fun x => c x * w x) l ≤ K * mag w l := by
  induction l with
  | nil => simp [mag]
  | cons x l ih =>
    have := ih fun y hy => h y (by simp [hy])
    rw [mag_cons, mag_cons, abs_mul]
    have := mul_le_mul_of_nonneg_right (h x (by simp)) (abs_nonneg (w x))
    linarith

theorem sum_sub {α : Type} (f g : α → ℚ) (l : List α) : (l.map fun x => f x - g x).sum = (l.map f).sum - (l.map g).sum := by
  induction l with
  | nil => simp
  | cons x l ih => simp only [List.map_cons, List.sum_cons, ih]; ring

theorem sum_lmul {α : Type} (f : α → ℚ) (c : ℚ) (l : List α) : (l.map fun x => c * f x).sum = c * (l.map f).sum := by
  induction l with
  | nil => simp
  | cons x l ih => simp only [List.map_cons, List.sum_cons, ih]; ring

theorem sum_err {α : Type} (f g : α → ℚ) (e : ℚ) (l : List α) (h : ∀ x ∈ l, |f x - g x| ≤ e * |g x|) : |(l.map f).sum - (l.map g).sum| ≤ e * mag g l := by
  induction l with
  | nil => simp [mag]
  | cons x l ih =>
    have := ih fun y hy => h y (by simp [hy])
    rw [mag_cons, List.map_cons, List.map_cons, List.sum_cons, List.sum_cons]
    have e1 : f x + (l.map f).sum - (g x + (l.map g).sum) = (f x - g x) + ((l.map f).sum - (l.map g).sum) := by ring
    rw [e1]
    refine (abs_add_le _ _).trans ?_
    have := h x (by simp)
    linarith

/-- Weights that are those of a mean, but for rounding. -/
structure Flat (ws : List (Int × ℚ)) : Prop where
  len : ws.length ≤ 2 ^ 19
  low : ∀ w ∈ ws, -(1 / 2 ^ 41) ≤ w.2
  one : |(ws.map Prod.snd).sum - 1| ≤ 1 / 2 ^ 20
  mag : mag Prod.snd ws ≤ 2

theorem mul_abs (a b : ℚ) : |mul a b - a * b| ≤ |a * b| / 2 ^ 53 := rnd_abs _

theorem mul_abs2 (a b c : ℚ) : |mul a (mul b c) - a * (b * c)| ≤ |a * (b * c)| / 2 ^ 51 := by
  have h1 := mul_abs b c
  have h2 := mul_abs a (mul b c)
  have e : mul a (mul b c) - a * (b * c) = (mul a (mul b c) - a * mul b c) + a * (mul b c - b * c) := by ring
  have h3 : |a * (mul b c - b * c)| ≤ |a * (b * c)| / 2 ^ 53 := by
    rw [abs_mul, abs_mul a]
    have := mul_le_mul_of_nonneg_left h1 (abs_nonneg a)
    linarith
  have h4 : |a * mul b c| ≤ 2 * |a * (b * c)| := by
    have e' : a * mul b c = a * (mul b c - b * c) + a * (b * c) := by ring
    rw [e']
    refine (abs_add_le _ _).trans ?_
    have := abs_nonneg (a * (b * c))
    linarith
  rw [e]
  refine (abs_add_le _ _).trans ?_
  have := abs_nonneg (a * (b * c))
  linarith

theorem flat_a {line : Int → Colour} {ws : List (Int × ℚ)} (F : Flat ws) : |(gather line ws).a - exactA line ws| ≤ 1 / 2 ^ 22 := by
  rw [gather_a]
  have h := fold_close (fun w : Int × ℚ => mul ((line w.1).a.toNat : Int) w.2) (fun w => ((line w.1).a.toNat : ℚ) * w.2) ws F.len (fun w _ => by
    have := mul_abs (((line w.1).a.toNat : Int) : ℚ) w.2
    have p := abs_nonneg ((((line w.1).a.toNat : Int) : ℚ) * w.2)
    rw [Int.cast_natCast] at *
    linarith)
  refine h.trans ?_
  have := mag_le (fun w : Int × ℚ => ((line w.1).a.toNat : ℚ)) Prod.snd 255 ws (fun w _ => by
    rw [abs_of_nonneg (by positivity)]
    exact_mod_cast a_le (line w.1))
  have := F.mag
  linarith

theorem flat_c (k : Channel) {line : Int → Colour} {ws : List (Int × ℚ)} (F : Flat ws) : |(gather line ws).of k - exactC k line ws| ≤ 1 / 2 ^ 14 := by
  rw [gather_of]
  have h := fold_close (fun w : Int × ℚ => mul (((line w.1).of k : Nat) : Int) (mul ((line w.1).a.toNat : Int) w.2))
    (fun w => ((line w.1).of k : ℚ) * (((line w.1).a.toNat : ℚ) * w.2)) ws F.len (fun w _ => by
    have := mul_abs2 ((((line w.1).of k : Nat) : Int) : ℚ) (((line w.1).a.toNat : Int) : ℚ) w.2
    rw [Int.cast_natCast, Int.cast_natCast] at *
    exact this)
  have e : exactC k line ws = (ws.map fun w => ((line w.1).of k : ℚ) * (((line w.1).a.toNat : ℚ) * w.2)).sum := rfl
  rw [e]
  refine h.trans ?_
  have m1 := mag_le (fun w : Int × ℚ => ((line w.1).a.toNat : ℚ)) Prod.snd 255 ws (fun w _ => by
    rw [abs_of_nonneg (by positivity)]
    exact_mod_cast a_le (line w.1))
  have m2 := mag_le (fun w : Int × ℚ => ((line w.1).of k : ℚ)) (fun w => ((line w.1).a.toNat : ℚ) * w.2) 255 ws (fun w _ => by
    rw [abs_of_nonneg (by positivity)]
    exact_mod_cast of_le (line w.1) k)
  have := F.mag
  linarith

/-- The opacity of a line. -/
theorem flat_alpha {line : Int → Colour} {ws : List (Int × ℚ)} (F : Flat ws) {lo hi : Nat} (hh : hi ≤ 255)
    (hb : ∀ w ∈ ws, lo ≤ (line w.1).a.toNat ∧ (line w.1).a.toNat ≤ hi) (hlo : lo ≤ 255) : (lo : ℚ) - 1 / 4 ≤ (gather line ws).a ∧ (gather line ws).a ≤ hi + 1 / 4 := by
  have fa := abs_le.1 (flat_a (line := line) F)
  have one := abs_le.1 F.one
  have hq : (hi : ℚ) ≤ 255 := by exact_mod_cast hh
  have lq : (lo : ℚ) ≤ 255 := by exact_mod_cast hlo
  have h0 : (0 : ℚ) ≤ hi := by positivity
  have l0 : (0 : ℚ) ≤ lo := by positivity
  have nq : (ws.length : ℚ) ≤ 2 ^ 19 := by exact_mod_cast F.len
  have g1 := sum_ge (fun w : Int × ℚ => ((line w.1).a.toNat : ℚ) - lo) Prod.snd 255 (1 / 2 ^ 41) (by norm_num) ws (fun w hw => by
    have b1 : (lo : ℚ) ≤ (line w.1).a.toNat := by exact_mod_cast (hb w hw).1
    have b2 : ((line w.1).a.toNat : ℚ) ≤ 255 := by exact_mod_cast a_le (line w.1)
    exact ⟨by linarith, by linarith, F.low w hw⟩)
  have g2 := sum_ge (fun w : Int × ℚ => (hi : ℚ) - (line w.1).a.toNat) Prod.snd 255 (1 / 2 ^ 41) (by norm_num) ws (fun w hw => by
    have b1 : ((line w.1).a.toNat : ℚ) ≤ hi := by exact_mod_cast (hb w hw).2
    have b2 : (0 : ℚ) ≤ (line w.1).a.toNat := by positivity
    exact ⟨by linarith, by linarith, F.low w hw⟩)
  simp only [sub_mul] at g1 g2
  rw [sum_sub, sum_lmul] at g1 g2
  have ea : exactA line ws = (ws.map fun w => ((line w.1).a.toNat : ℚ) * w.2).sum := rfl
  rw [← ea] at g1 g2
  have ex : (ws.map fun w => w.2).sum = (ws.map Prod.snd).sum := rfl
  rw [ex] at g1 g2
  generalize (ws.map Prod.snd).sum = P at *
  generalize exactA line ws = A at *
  generalize (gather line ws).a = a at *
  constructor
  · nlinarith
  · nlinarith

/-- The shades of a line where it can be seen. -/
theorem flat_shades (k : Channel) {line : Int → Colour} {ws : List (Int × ℚ)} (F : Flat ws) {lo hi : Nat} (hh : hi ≤ 255)
    (hb : ∀ w ∈ ws, (line w.1).a ≠ 0 → lo ≤ (line w.1).of k ∧ (line w.1).of k ≤ hi)
    (ha : ((gather line ws).out (gather line ws).a).a ≠ 0) :
    lo ≤ ((gather line ws).out (gather line ws).a).of k ∧ ((gather line ws).out (gather line ws).a).of k ≤ hi := by
  have al := flat_alpha (line := line) F (lo := 0) (hi := 255) le_rfl (fun w _ => ⟨by omega, a_le _⟩) (by omega)
  have ne : (gather line ws).a ≠ 0 := by
    intro e
    apply ha
    unfold Acc.out
    rw [if_pos e]
  have big : 1 / 4 < (gather line ws).a := by
    by_contra hc
    have := clamp8_near (x := (gather line ws).a) (lo := 0) (hi := 0) (by omega) al.1 (by push_cast; linarith)
    apply ha
    unfold Acc.out
    rw [if_neg ne]
    show clamp8 (gather line ws).a = 0
    exact UInt8.toNat_inj.1 (by rw [UInt8.toNat_zero]; omega)
  rw [out_of k _ _ ne]
  -- there is something to be seen, so that `lo ≤ 255`
  have lo255 : lo ≤ 255 := by
    by_contra hc
    have z := flat_alpha (line := line) F (lo := 0) (hi := 0) (by omega) (fun w hw => ⟨by omega, by
      by_contra hw'
      have := hb w hw (fun e => hw' (by rw [e, UInt8.toNat_zero]))
      omega⟩) (by omega)
    have := z.2
    push_cast at this
    linarith
  have fa := abs_le.1 (flat_a (line := line) F)
  have fc := abs_le.1 (flat_c k (line := line) F)
  have hq : (hi : ℚ) ≤ 255 := by exact_mod_cast hh
  have lq : (lo : ℚ) ≤ 255 := by exact_mod_cast lo255
  have h0 : (0 : ℚ) ≤ hi := by positivity
  have l0 : (0 : ℚ) ≤ lo := by positivity
  have nq : (ws.length : ℚ) ≤ 2 ^ 19 := by exact_mod_cast F.len
  have g1 := sum_ge (fun w : Int × ℚ => (((line w.1).of k : ℚ) - lo) * (line w.1).a.toNat) Prod.snd 65025 (1 / 2 ^ 41) (by norm_num) ws (fun w hw => by
    have b2 : ((line w.1).a.toNat : ℚ) ≤ 255 := by exact_mod_cast a_le (line w.1)
    have b3 : ((line w.1).of k : ℚ) ≤ 255 := by exact_mod_cast of_le (line w.1) k
    have b4 : (0 : ℚ) ≤ (line w.1).a.toNat := by positivity
    by_cases hz : (line w.1).a = 0
    · rw [hz]; simp only [UInt8.toNat_zero, Nat.cast_zero, mul_zero]
      exact ⟨le_rfl, by norm_num, F.low w hw⟩
    · have b1 : (lo : ℚ) ≤ (line w.1).of k := by exact_mod_cast (hb w hw hz).1
      exact ⟨mul_nonneg (by linarith) b4, by nlinarith, F.low w hw⟩)
  have g2 := sum_ge (fun w : Int × ℚ => ((hi : ℚ) - (line w.1).of k) * (line w.1).a.toNat) Prod.snd 65025 (1 / 2 ^ 41) (by norm_num) ws (fun w hw => by
    have b2 : ((line w.1).a.toNat : ℚ) ≤ 255 := by exact_mod_cast a_le (line w.1)
    have b3 : (0 : ℚ) ≤ (line w.1).of k := by positivity
    have b4 : (0 : ℚ) ≤ (line w.1).a.toNat := by positivity
    by_cases hz : (line w.1).a = 0
    · rw [hz]; simp only [UInt8.toNat_zero, Nat.cast_zero, mul_zero]
      exact ⟨le_rfl, by norm_num, F.low w hw⟩
    · have b1 : ((line w.1).of k : ℚ) ≤ hi := by exact_mod_cast (hb w hw hz).2
      exact ⟨mul_nonneg (by linarith) b4, by nlinarith, F.low w hw⟩)
  simp only [sub_mul, mul_assoc] at g1 g2
  rw [sum_sub, sum_lmul] at g1 g2
  have ea : exactA line ws = (ws.map fun w => ((line w.1).a.toNat : ℚ) * w.2).sum := rfl
  have ec : exactC k line ws = (ws.map fun w => ((line w.1).of k : ℚ) * (((line w.1).a.toNat : ℚ) * w.2)).sum := rfl
  rw [← ea, ← ec] at g1 g2
  generalize exactA line ws = A at *
  generalize exactC k line ws = C at *
  generalize (gather line ws).a = a at *
  generalize (gather line ws).of k = c at *
  have c1 : lo * a - 1 / 30 ≤ c := by nlinarith
  have c2 : c ≤ hi * a + 1 / 30 := by nlinarith
  have a0 : 0 < a := by linarith
  have q1 : (lo : ℚ) - 4 / 30 ≤ c / a := by rw [le_div_iff₀ a0]; nlinarith
  have q2 : c / a ≤ hi + 4 / 30 := by rw [div_le_iff₀ a0]; nlinarith
  have m : |mul c (div 1 a) - c / a| ≤ 1 / 100 := by
    have d1 := mul_abs2 c 1 (1 / a)
    have e1 : mul 1 (1 / a) = div 1 a := by unfold mul div; rw [one_mul]
    have e2 : c * (1 * (1 / a)) = c / a := by rw [one_mul]; ring
    rw [e1, e2] at d1
    have : |c / a| ≤ 256 := abs_le.2 ⟨by linarith, by linarith⟩
    linarith
  have m' := abs_le.1 m
  exact clamp8_near hh (by linarith) (by linarith)

theorem flat_opacity {line : Int → Colour} {ws : List (Int × ℚ)} (F : Flat ws) (hne : ws ≠ []) {lo hi : Nat} (hh : hi ≤ 255)
    (hb : ∀ w ∈ ws, lo ≤ (line w.1).a.toNat ∧ (line w.1).a.toNat ≤ hi) :
    lo ≤ ((gather line ws).out (gather line ws).a).a.toNat ∧ ((gather line ws).out (gather line ws).a).a.toNat ≤ hi := by
  obtain ⟨w, hw⟩ := List.exists_mem_of_ne_nil ws hne
  have lo255 : lo ≤ 255 := (hb w hw).1.trans (a_le _)
  have al := flat_alpha (line := line) F hh hb lo255
  unfold Acc.out
  split
  · rename_i e
    rw [e] at al
    have : (lo : ℚ) < 1 := by linarith [al.1]
    have : lo < 1 := by exact_mod_cast this
    simp only [UInt8.toNat_zero]
    omega
  · exact clamp8_near hh al.1 al.2

/-! ## The weights -/

/-- Kernels negative by rounding only: nowhere below -2⁻⁴⁷, and at least 1/4 up to a distance of 1/2. -/
def Mild (f : Filter) : Prop := 1 / 2 ≤ f.support ∧ ∀ x, -(1 / 2 ^ 47) ≤ f.kernel x ∧ (-(1 / 2) ≤ x → x ≤ 1 / 2 → 1 / 4 ≤ f.kernel x)

theorem raw_has {f : Filter} (hf : Mild f) {dst src v : Int} (hd : Fits dst) (hs : Fits src) (h0 : 0 ≤ v) (h1 : v < dst) :
    ∃ w ∈ raw f dst src v, 1 / 4 ≤ w.2 := by
  obtain ⟨u, u0, u1, l, r⟩ := next_pixel hd hs h0 h1
  have hs2 := hs.2
  have sc := scale_ge (dst := dst) (src := src)
  have ou : ofInt u = u := ofInt_fits (by omega) (by omega)
  have q1 : rnd (ofInt u - centre dst src v) ≤ 1 / 2 := by
    rw [ou]
    have := rnd_le_half (q := (u : ℚ) - centre dst src v) (m := 1) (by norm_num) (by norm_num) (by push_cast; linarith)
    push_cast at this; exact this
  have q2 : -(1 / 2) ≤ rnd (ofInt u - centre dst src v) := by
    rw [ou]
    have := half_le_rnd (q := (u : ℚ) - centre dst src v) (m := -1) (by norm_num) (by norm_num) (by push_cast; linarith)
    push_cast at this; linarith
  have k := (hf.2 (div (rnd (ofInt u - centre dst src v)) (scaleOf dst src))).2 (by
      have := half_le_rnd (q := rnd (ofInt u - centre dst src v) / scaleOf dst src) (m := -1) (by norm_num) (by norm_num) (by
        rw [le_div_iff₀ (by linarith)]; push_cast; linarith)
      push_cast at this; unfold div; linarith) (by
      have := rnd_le_half (q := rnd (ofInt u - centre dst src v) / scaleOf dst src) (m := 1) (by norm_num) (by norm_num) (by
        rw [div_le_iff₀ (by linarith)]; push_cast; linarith)
      push_cast at this; exact this)
  have rc : (1 : ℚ) ≤ reach f dst src := by
    unfold reach
    have : (1 / 2 : ℚ) ≤ mul (scaleOf dst src) f.support := by
      have := half_le_rnd (q := scaleOf dst src * f.support) (m := 1) (by norm_num) (by norm_num) (by
        push_cast
        have := hf.1
        nlinarith)
      push_cast at this; exact this
    have : (0 : Int) < (mul (scaleOf dst src) f.support).ceil := by
      rw [Rat.lt_ceil_iff]; push_cast; linarith
    exact_mod_cast (by omega : (1 : Int) ≤ (mul (scaleOf dst src) f.support).ceil)
  refine ⟨(u, f.kernel (div (rnd (ofInt u - centre dst src v)) (scaleOf dst src))), ?_, k⟩
  unfold raw
  simp only [List.mem_filter, List.mem_map, mem_fromTo, decide_eq_true_eq]
  refine ⟨⟨u, ⟨?_, ?_⟩, rfl⟩, by linarith⟩
  · split
    · exact u0
    · rw [Rat.ceil_le_iff]
      exact rnd_le_int (by omega) (by omega) (by linarith)
  · split
    · omega
    · rw [Rat.le_floor_iff]
      exact le_rnd_int (by omega) (by omega) (by linarith)

theorem sum_low {α : Type} (g : α → ℚ) (e : ℚ) (l : List α) (h : ∀ x ∈ l, -e ≤ g x) : -(l.length * e) ≤ (l.map g).sum := by
  induction l with
  | nil => simp
  | cons x l ih =>
    have := ih fun y hy => h y (by simp [hy])
    have := h x (by simp)
    rw [List.map_cons, List.sum_cons, List.length_cons]
    push_cast
    linarith

theorem sum_has {α : Type} (g : α → ℚ) (e : ℚ) (he : 0 ≤ e) (l : List α) (h : ∀ x ∈ l, -e ≤ g x) {x : α} (hx : x ∈ l) : g x - l.length * e ≤ (l.map g).sum := by
  induction l with
  | nil => simp at hx
  | cons y l ih =>
    have h' : ∀ z ∈ l, -e ≤ g z := fun z hz => h z (by simp [hz])
    rw [List.map_cons, List.sum_cons, List.length_cons]
    push_cast
    rcases List.mem_cons.1 hx with rfl | hx
    · have := sum_low g e l h'
      linarith
    · have := ih h' hx
      have := h y (by simp)
      linarith

theorem mag_near {α : Type} (g : α → ℚ) (e : ℚ) (he : 0 ≤ e) (l : List α) (h : ∀ x ∈ l, -e ≤ g x) : mag g l ≤ (l.map g).sum + l.length * (2 * e) := by
  induction l with
  | nil => simp [mag]
  | cons x l ih =>
    have := ih fun y hy => h y (by simp [hy])
    rw [List.map_cons, List.sum_cons, List.length_cons, mag_cons]
    push_cast
    have : |g x| ≤ g x + 2 * e := abs_le.2 ⟨by linarith [h x (by simp)], by linarith⟩
    linarith

theorem mag_scaled {α : Type} (f g : α → ℚ) (l : List α) (h : ∀ x ∈ l, |f x - g x| ≤ 1 / 2 ^ 53 * |g x|) : mag f l ≤ 3 / 2 * mag g l := by
  induction l with
  | nil => simp [mag]
  | cons x l ih =>
    have i := ih fun y hy => h y (by simp [hy])
    rw [mag_cons, mag_cons]
    have ex := h x (by simp)
    have t := abs_add_le (f x - g x) (g x)
    rw [sub_add_cancel] at t
    have := abs_nonneg (g x)
    linarith

theorem raw_length_le {f : Filter} {dst src v : Int} {n : Nat} (hs : src ≤ n) : (raw f dst src v).length ≤ n := by
  unfold raw
  refine (List.length_filter_le _ _).trans ?_
  rw [List.length_map, fromTo_length]
  split <;> split <;> omega

/-- The weights of a mild filter. -/
theorem mild_weights {f : Filter} (hf : Mild f) {dst src v : Int} (hd : Fits dst) (hs : Fits src) (hs' : src ≤ 2 ^ 19) (h0 : 0 ≤ v) (h1 : v < dst) :
    Flat (weights f dst src v) ∧ weights f dst src v ≠ [] ∧ ∀ w ∈ weights f dst src v, 0 ≤ w.1 ∧ w.1 < src := by
  have low : ∀ w ∈ raw f dst src v, -(1 / 2 ^ 47) ≤ w.2 := fun w hw => by rw [(raw_mem hw).2.2]; exact (hf.2 _).1
  have len : (raw f dst src v).length ≤ 2 ^ 19 := raw_length_le (n := 2 ^ 19) (by exact_mod_cast hs')
  have lq : ((raw f dst src v).length : ℚ) ≤ 2 ^ 19 := by exact_mod_cast len
  have mem : ∀ w ∈ raw f dst src v, 0 ≤ w.1 ∧ w.1 < src := fun w hw => ⟨(raw_mem hw).1, (raw_mem hw).2.1⟩
  obtain ⟨w0, hw0, k0⟩ := raw_has hf hd hs h0 h1
  unfold weights
  simp only
  generalize raw f dst src v = rs at *
  have P := sum_has Prod.snd (1 / 2 ^ 47) (by norm_num) rs low hw0
  have M := mag_near Prod.snd (1 / 2 ^ 47) (by norm_num) rs low
  have M0 := mag_nonneg Prod.snd rs
  have T : |total rs - (rs.map Prod.snd).sum| ≤ mag Prod.snd rs / 2 ^ 32 :=
    fold_close Prod.snd Prod.snd rs len (fun w _ => by rw [sub_self, abs_zero]; positivity)
  have T' := abs_le.1 T
  generalize hS : (rs.map Prod.snd).sum = S at *
  generalize hG : mag Prod.snd rs = G at *
  generalize total rs = t at *
  have S8 : 1 / 8 ≤ S := by linarith
  have GS : G ≤ S * (1 + 1 / 2 ^ 22) := by linarith
  have t1 : S * (1 - 1 / 2 ^ 31) ≤ t := by linarith
  have t2 : t ≤ S * (1 + 1 / 2 ^ 31) := by linarith
  have tp : 0 < t := by linarith
  have t16 : 1 / 16 ≤ t := by linarith
  rw [if_neg tp.ne']
  have each : ∀ w ∈ rs, |div w.2 t - 1 / t * w.2| ≤ 1 / 2 ^ 53 * |1 / t * w.2| := by
    intro w _
    have := rnd_abs (w.2 / t)
    have e : 1 / t * w.2 = w.2 / t := by ring
    rw [e]
    unfold div
    linarith
  have ms : mag (fun w : Int × ℚ => 1 / t * w.2) rs ≤ 1 / t * G := by
    have := mag_le (fun _ : Int × ℚ => 1 / t) Prod.snd (1 / t) rs (fun _ _ => by rw [abs_of_pos (by positivity)])
    rwa [hG] at this
  have Gt : 1 / t * G ≤ 1 + 1 / 2 ^ 21 := by
    rw [one_div_mul_eq_div, div_le_iff₀ tp]
    nlinarith
  have se := sum_err (fun w : Int × ℚ => div w.2 t) (fun w => 1 / t * w.2) (1 / 2 ^ 53) rs each
  rw [sum_lmul] at se
  have eS : (rs.map fun w => w.2).sum = S := hS
  rw [eS] at se
  have St1 : 1 / t * S ≤ 1 + 1 / 2 ^ 30 := by rw [one_div_mul_eq_div, div_le_iff₀ tp]; nlinarith
  have St2 : 1 - 1 / 2 ^ 30 ≤ 1 / t * S := by rw [one_div_mul_eq_div, le_div_iff₀ tp]; nlinarith
  refine ⟨⟨by rw [List.length_map]; exact len, ?_, ?_, ?_⟩, ?_, ?_⟩
  · simp only [List.mem_map]
    rintro _ ⟨w, hw, rfl⟩
    show -(1 / 2 ^ 41) ≤ div w.2 t
    have l := low w hw
    unfold div
    rcases le_or_gt 0 w.2 with h | h
    · have := rnd_nonneg (q := w.2 / t) (div_nonneg h tp.le)
      linarith
    · have a := abs_le.1 (rnd_abs (w.2 / t))
      have b : -(1 / 2 ^ 43) ≤ w.2 / t := by rw [le_div_iff₀ tp]; linarith
      have c : w.2 / t ≤ 0 := by rw [div_le_iff₀ tp]; linarith
      rw [abs_of_nonpos c] at a
      linarith [a.1]
  · rw [List.map_map]
    have e : (Prod.snd ∘ fun w : Int × ℚ => (w.1, div w.2 t)) = fun w => div w.2 t := rfl
    rw [e]
    have se' := abs_le.1 se
    exact abs_le.2 ⟨by linarith, by linarith⟩
  · have e : mag Prod.snd (rs.map fun w => (w.1, div w.2 t)) = mag (fun w : Int × ℚ => div w.2 t) rs := by
      unfold mag
      rw [List.map_map]
      rfl
    rw [e]
    have := mag_scaled _ _ rs each
    linarith
  · intro e
    rw [List.map_eq_nil_iff] at e
    rw [e] at hw0
    simp at hw0
  · simp only [List.mem_map]
    rintro _ ⟨w, hw, rfl⟩
    exact mem w hw

/-! ## Hermite and BSpline -/

theorem abs64_eq (x : ℚ) : abs64 x = |x| := by
  unfold abs64
  split
  · rename_i h; rw [abs_of_nonneg h]
  · rename_i h; rw [abs_of_neg (not_le.1 h)]

theorem mul_step {a A e M y Y : ℚ} (h : |a - A| ≤ e) (hM : |A| ≤ M) (h0 : 0 ≤ y) (h1 : y ≤ Y) : |mul a y - A * y| ≤ (e + (M + e) / 2 ^ 53) * Y := by
  have m := mul_abs a y
  have e1 : mul a y - A * y = (mul a y - a * y) + (a - A) * y := by ring
  have e0 := (abs_nonneg _).trans h
  have M0 := (abs_nonneg _).trans hM
  have ha : |a| ≤ M + e := by
    have : a = A + (a - A) := by ring
    rw [this]
    exact (abs_add_le _ _).trans (by linarith)
  rw [e1]
  refine (abs_add_le _ _).trans ?_
  rw [abs_mul a, abs_of_nonneg h0] at m
  rw [abs_mul (a - A), abs_of_nonneg h0]
  have c1 : |a| * y ≤ (M + e) * Y := mul_le_mul ha h1 h0 (by linarith)
  have c2 : |a - A| * y ≤ e * Y := mul_le_mul h h1 h0 e0
  linarith

theorem add_step {a A b B d e M : ℚ} (h : |a - A| ≤ d) (h' : |b - B| ≤ e) (hM : |A + B| ≤ M) : |rnd (a + b) - (A + B)| ≤ d + e + (M + d + e) / 2 ^ 53 := by
  have r := rnd_abs (a + b)
  have e1 : rnd (a + b) - (A + B) = (rnd (a + b) - (a + b)) + ((a - A) + (b - B)) := by ring
  have t := abs_add_le (a - A) (b - B)
  have s : |a + b| ≤ M + d + e := by
    have : a + b = (A + B) + ((a - A) + (b - B)) := by ring
    rw [this]
    exact (abs_add_le _ _).trans (by linarith)
  rw [e1]
  refine (abs_add_le _ _).trans ?_
  linarith

theorem div_step {a A e M : ℚ} (h : |a - A| ≤ e) (hM : |A| ≤ M) : |div a 6 - A / 6| ≤ (e + (M + e) / 2 ^ 53) / 6 := by
  have r := rnd_abs (a / 6)
  have ha : |a| ≤ M + e := by
    have : a = A + (a - A) := by ring
    rw [this]
    exact (abs_add_le _ _).trans (by linarith)
  have e1 : div a 6 - A / 6 = (rnd (a / 6) - a / 6) + (a - A) / 6 := by unfold div; ring
  rw [e1]
  refine (abs_add_le _ _).trans ?_
  rw [abs_div, abs_of_pos (show (0 : ℚ) < 6 by norm_num)] at *
  linarith

/-- The cubic of the inner part. -/
theorem inner_close {k l m y : ℚ} (hk : |k| ≤ 12) (hl : |l| ≤ 18) (hm : |m| ≤ 6) (h0 : 0 ≤ y) (h1 : y ≤ 1) :
    |div (rnd (rnd (mul (mul (mul k y) y) y + mul (mul l y) y) + m)) 6 - (k * y * y * y + l * y * y + m) / 6| ≤ 1 / 2 ^ 47 := by
  have bd : ∀ {a b : ℚ}, |a| ≤ b → |a * y| ≤ b := by
    intro a b h
    rw [abs_mul, abs_of_nonneg h0]
    nlinarith [abs_nonneg a]
  have z : ∀ a : ℚ, |a - a| ≤ 0 := fun a => by simp
  have p1 := mul_step (z k) hk h0 h1
  have p2 := mul_step p1 (bd hk) h0 h1
  have p3 := mul_step p2 (bd (bd hk)) h0 h1
  have q1 := mul_step (z l) hl h0 h1
  have q2 := mul_step q1 (bd hl) h0 h1
  have s1 : |k * y * y * y + l * y * y| ≤ 30 := (abs_add_le _ _).trans (by linarith [bd (bd (bd hk)), bd (bd hl)])
  have a1 := add_step p3 q2 s1
  have s2 : |k * y * y * y + l * y * y + m| ≤ 36 := (abs_add_le _ _).trans (by linarith)
  have a2 := add_step a1 (z m) s2
  have d := div_step a2 s2
  refine d.trans ?_
  norm_num

/-- The cubic of the outer part. -/
theorem outer_close {y : ℚ} (h0 : 0 ≤ y) (h1 : y ≤ 2) :
    |div (rnd (rnd (rnd (mul (mul (mul (-1) y) y) y + mul (mul 6 y) y) + mul (-12) y) + 8)) 6 - (-1 * y * y * y + 6 * y * y + -12 * y + 8) / 6| ≤ 1 / 2 ^ 47 := by
  have bd : ∀ {a b : ℚ}, |a| ≤ b → |a * y| ≤ b * 2 := by
    intro a b h
    rw [abs_mul, abs_of_nonneg h0]
    exact mul_le_mul h h1 h0 ((abs_nonneg _).trans h)
  have z : ∀ a : ℚ, |a - a| ≤ 0 := fun a => by simp
  have k1 : |(-1 : ℚ)| ≤ 1 := by norm_num
  have k6 : |(6 : ℚ)| ≤ 6 := by norm_num
  have k12 : |(-12 : ℚ)| ≤ 12 := by norm_num
  have k8 : |(8 : ℚ)| ≤ 8 := by norm_num
  have p1 := mul_step (z (-1)) k1 h0 h1
  have p2 := mul_step p1 (bd k1) h0 h1
  have p3 := mul_step p2 (bd (bd k1)) h0 h1
  have q1 := mul_step (z 6) k6 h0 h1
  have q2 := mul_step q1 (bd k6) h0 h1
  have r1 := mul_step (z (-12)) k12 h0 h1
  have s1 : |-1 * y * y * y + 6 * y * y| ≤ 32 := (abs_add_le _ _).trans (by linarith [bd (bd (bd k1)), bd (bd k6)])
  have a1 := add_step p3 q2 s1
  have s2 : |-1 * y * y * y + 6 * y * y + -12 * y| ≤ 56 := (abs_add_le _ _).trans (by linarith [bd k12])
  have a2 := add_step a1 r1 s2
  have s3 : |-1 * y * y * y + 6 * y * y + -12 * y + 8| ≤ 64 := (abs_add_le _ _).trans (by linarith)
  have a3 := add_step a2 (z 8) s3
  have d := div_step a3 s3
  refine d.trans ?_
  norm_num

theorem mild_hermite (other : Int → Filter) : Mild (filterOf other 3) := by
  unfold filterOf
  rw [if_neg (by decide), if_neg (by decide), if_neg (by decide), if_pos rfl]
  have val : ∀ x, abs64 x < 1 → |bcspline (abs64 x) 0 0 - (12 * abs64 x * abs64 x * abs64 x + -18 * abs64 x * abs64 x + 6) / 6| ≤ 1 / 2 ^ 47 := by
    intro x hx
    have h0 : 0 ≤ abs64 x := by rw [abs64_eq]; exact abs_nonneg x
    unfold bcspline
    have e : abs64 (abs64 x) = abs64 x := by rw [abs64_eq (abs64 x), abs_of_nonneg h0]
    simp only [e]
    rw [if_pos hx]
    have c1 : rnd (rnd (12 - mul 9 0) - mul 6 0) = 12 := by decide +kernel
    have c2 : rnd (rnd (-18 + mul 12 0) + mul 6 0) = -18 := by decide +kernel
    have c3 : rnd (6 - mul 2 0) = 6 := by decide +kernel
    rw [c1, c2, c3]
    exact inner_close (by norm_num) (by norm_num) (by norm_num) h0 hx.le
  refine ⟨by norm_num, fun x => ⟨?_, fun h1 h2 => ?_⟩⟩
  · simp only
    split
    · rename_i hx
      have v := (abs_le.1 (val x hx)).1
      have h0 : 0 ≤ abs64 x := by rw [abs64_eq]; exact abs_nonneg x
      generalize abs64 x = y at *
      have : 0 ≤ 6 * ((1 - y) * (1 - y) * (1 + 2 * y)) := by
        have : 0 ≤ (1 - y) * (1 - y) := mul_self_nonneg _
        positivity
      linarith
    · norm_num
  · simp only
    have hx : abs64 x ≤ 1 / 2 := by rw [abs64_eq]; exact abs_le.2 ⟨h1, h2⟩
    rw [if_pos (by linarith)]
    have v := (abs_le.1 (val x (by linarith))).1
    have h0 : 0 ≤ abs64 x := by rw [abs64_eq]; exact abs_nonneg x
    generalize abs64 x = y at *
    have : 3 ≤ 6 * ((1 - y) * (1 - y) * (1 + 2 * y)) := by
      have : 0 ≤ (1 / 2 - y) * (1 + 2 * y - 2 * y * y) := mul_nonneg (by linarith) (by nlinarith)
      nlinarith
    linarith

theorem mild_bspline (other : Int → Filter) : Mild (filterOf other 6) := by
  unfold filterOf
  rw [if_neg (by decide), if_neg (by decide), if_neg (by decide), if_neg (by decide), if_neg (by decide), if_neg (by decide), if_pos rfl]
  have e : ∀ x, abs64 (abs64 x) = abs64 x := fun x => by rw [abs64_eq (abs64 x), abs_of_nonneg (by rw [abs64_eq]; exact abs_nonneg x)]
  have val1 : ∀ x, abs64 x < 1 → |bcspline (abs64 x) 1 0 - (3 * abs64 x * abs64 x * abs64 x + -6 * abs64 x * abs64 x + 4) / 6| ≤ 1 / 2 ^ 47 := by
    intro x hx
    have h0 : 0 ≤ abs64 x := by rw [abs64_eq]; exact abs_nonneg x
    unfold bcspline
    simp only [e]
    rw [if_pos hx]
    have c1 : rnd (rnd (12 - mul 9 1) - mul 6 0) = 3 := by decide +kernel
    have c2 : rnd (rnd (-18 + mul 12 1) + mul 6 0) = -6 := by decide +kernel
    have c3 : rnd (6 - mul 2 1) = 4 := by decide +kernel
    rw [c1, c2, c3]
    exact inner_close (by norm_num) (by norm_num) (by norm_num) h0 hx.le
  have val2 : ∀ x, 1 ≤ abs64 x → abs64 x < 2 →
      |bcspline (abs64 x) 1 0 - (-1 * abs64 x * abs64 x * abs64 x + 6 * abs64 x * abs64 x + -12 * abs64 x + 8) / 6| ≤ 1 / 2 ^ 47 := by
    intro x hx hx'
    unfold bcspline
    simp only [e]
    rw [if_neg (not_lt.2 hx), if_pos hx']
    have c1 : rnd (-1 - mul 6 0) = -1 := by decide +kernel
    have c2 : rnd (mul 6 1 + mul 30 0) = 6 := by decide +kernel
    have c3 : rnd (mul (-12) 1 - mul 48 0) = -12 := by decide +kernel
    have c4 : rnd (mul 8 1 + mul 24 0) = 8 := by decide +kernel
    rw [c1, c2, c3, c4]
    exact outer_close (by linarith) hx'.le
  refine ⟨by norm_num, fun x => ⟨?_, fun h1 h2 => ?_⟩⟩
  · simp only
    split
    · rename_i hx
      have h0 : 0 ≤ abs64 x := by rw [abs64_eq]; exact abs_nonneg x
      rcases lt_or_ge (abs64 x) 1 with h | h
      · have v := (abs_le.1 (val1 x h)).1
        generalize abs64 x = y at *
        have : 0 ≤ 3 * y * y * y + -6 * y * y + 4 := by
          have : 0 ≤ y * y * y := by positivity
          nlinarith
        linarith
      · have v := (abs_le.1 (val2 x h hx)).1
        generalize abs64 x = y at *
        have : 0 ≤ (2 - y) * (2 - y) * (2 - y) := by
          have : 0 ≤ (2 - y) * (2 - y) := mul_self_nonneg _
          exact mul_nonneg this (by linarith)
        linarith
    · norm_num
  · simp only
    have hx : abs64 x ≤ 1 / 2 := by rw [abs64_eq]; exact abs_le.2 ⟨h1, h2⟩
    rw [if_pos (by linarith)]
    have v := (abs_le.1 (val1 x (by linarith))).1
    have h0 : 0 ≤ abs64 x := by rw [abs64_eq]; exact abs_nonneg x
    generalize abs64 x = y at *
    have : 2 ≤ 3 * y * y * y + -6 * y * y + 4 := by
      have : 0 ≤ y * y * y := by positivity
      nlinarith
    linarith

/-! ## Pictures -/

theorem mild_shades {f : Filter} (hf : Mild f) (k : Channel) (lo hi : Nat) : Stable f fun p => p.Shades k lo hi := by
  refine ⟨fun hp hs c hc => hp c (hs c hc), fun img w h h1 h2 h3 h4 g1 g2 hr => ?_⟩
  have hp : 0 < f.support := by linarith [hf.1]
  refine passes (R := fun p => p.Shades k lo hi) hp ?_ ?_ img w h h1 h2 h3 h4 g1 g2 hr
  · intro img w h1 h3 g1 hr
    rw [shades_min] at hr ⊢
    rintro c ⟨x, y, x0, x1, y0, y1, rfl⟩ ha
    have x1' : x < w := x1.trans_eq (resizeH_dx f img w).1
    have y1' : y < img.b.dy := y1.trans_eq (resizeH_dx f img w).2
    obtain ⟨F, -, B⟩ := mild_weights hf h3 h1 g1 x0 x1'
    rw [resizeH_px] at ha ⊢
    exact flat_shades k F (by omega) (fun w hw hu => hr _ (has_px (B w hw).1 (B w hw).2 y0 y1') hu) ha
  · intro img h h2 h4 g2 hr
    rw [shades_min] at hr ⊢
    rintro c ⟨x, y, x0, x1, y0, y1, rfl⟩ ha
    have x1' : x < img.b.dx := x1.trans_eq (resizeV_dx f img h).1
    have y1' : y < h := y1.trans_eq (resizeV_dx f img h).2
    obtain ⟨F, -, B⟩ := mild_weights hf h4 h2 g2 y0 y1'
    rw [resizeV_px] at ha ⊢
    exact flat_shades k F (by omega) (fun w hw hu => hr _ (has_px x0 x1' (B w hw).1 (B w hw).2) hu) ha

theorem mild_opacity {f : Filter} (hf : Mild f) (lo hi : Nat) : Stable f fun p => p.Opacity lo hi := by
  refine ⟨fun hp hs c hc => hp c (hs c hc), fun img w h h1 h2 h3 h4 g1 g2 hr => ?_⟩
  have hp : 0 < f.support := by linarith [hf.1]
  refine passes (R := fun p => p.Opacity lo hi) hp ?_ ?_ img w h h1 h2 h3 h4 g1 g2 hr
  · intro img w h1 h3 g1 hr
    rw [opacity_min] at hr ⊢
    rintro c ⟨x, y, x0, x1, y0, y1, rfl⟩
    have x1' : x < w := x1.trans_eq (resizeH_dx f img w).1
    have y1' : y < img.b.dy := y1.trans_eq (resizeH_dx f img w).2
    obtain ⟨F, N, B⟩ := mild_weights hf h3 h1 g1 x0 x1'
    rw [resizeH_px]
    exact flat_opacity F N (by omega) fun w hw => hr _ (has_px (B w hw).1 (B w hw).2 y0 y1')
  · intro img h h2 h4 g2 hr
    rw [opacity_min] at hr ⊢
    rintro c ⟨x, y, x0, x1, y0, y1, rfl⟩
    have x1' : x < img.b.dx := x1.trans_eq (resizeV_dx f img h).1
    have y1' : y < h := y1.trans_eq (resizeV_dx f img h).2
    obtain ⟨F, N, B⟩ := mild_weights hf h4 h2 g2 y0 y1'
    rw [resizeV_px]
    exact flat_opacity F N (by omega) fun w hw => hr _ (has_px x0 x1' (B w hw).1 (B w hw).2)

end Gofer.Resample
