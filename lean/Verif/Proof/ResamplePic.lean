import Verif.Proof.Resample
import Verif.Proof.ImageMore
/-! Whole pictures, for `Verif/Props/Resample.lean`. -/
namespace Gofer.Resample
open Gofer.Image Gofer.F64 Gofer.ImageTr
open Gofer.Spec.Picture

theorem has_iff (img : I) (c : Colour) :
    (view img).Has c ↔ ∃ x y, 0 ≤ x ∧ x < img.b.dx ∧ 0 ≤ y ∧ y < img.b.dy ∧ img.px (img.b.x0 + x) (img.b.y0 + y) = c := Iff.rfl

theorem has_px {img : I} {x y : Int} (h1 : 0 ≤ x) (h2 : x < img.b.dx) (h3 : 0 ≤ y) (h4 : y < img.b.dy) :
    (view img).Has (img.px (img.b.x0 + x) (img.b.y0 + y)) := ⟨x, y, h1, h2, h3, h4, rfl⟩

/-! ## Passes -/

theorem of_le (c : Colour) (k : Channel) : c.of k ≤ 255 := by
  cases k
  · have := c.r.toNat_lt; simp only [Colour.of]; omega
  · have := c.g.toNat_lt; simp only [Colour.of]; omega
  · have := c.b.toNat_lt; simp only [Colour.of]; omega

theorem a_le (c : Colour) : c.a.toNat ≤ 255 := by have := c.a.toNat_lt; omega

theorem shades_min {p : Pic Colour} {k : Channel} {lo hi : Nat} : p.Shades k lo hi ↔ p.Shades k lo (min hi 255) := by
  constructor <;> intro h c hc ha <;> have := h c hc ha <;> have := of_le c k <;> omega

theorem opacity_min {p : Pic Colour} {lo hi : Nat} : p.Opacity lo hi ↔ p.Opacity lo (min hi 255) := by
  constructor <;> intro h c hc <;> have := h c hc <;> have := a_le c <;> omega

/-- One line, resampled. -/
theorem line_shades {f : Filter} (hf : Averaging f) {dst src v : Int} (hd : Fits dst) (hs : Fits src) (h0 : 0 ≤ v) (h1 : v < dst) (line : Int → Colour)
    (k : Channel) {lo hi : Nat} (hh : hi ≤ 255) (hb : ∀ u, 0 ≤ u → u < src → (line u).a ≠ 0 → lo ≤ (line u).of k ∧ (line u).of k ≤ hi) (a : ℚ)
    (ha : ((gather line (weights f dst src v)).out a).a ≠ 0) :
    lo ≤ ((gather line (weights f dst src v)).out a).of k ∧ ((gather line (weights f dst src v)).out a).of k ≤ hi := by
  have tp : 0 < total (raw f dst src v) := near_pos (near_total (raw_nonneg hf)) (raw_pos hf hd hs h0 h1)
  refine out_channel k ?_ ?_ hh ?_ a ?_
  · rw [weights_eq hf hd hs h0 h1]
    simp only [List.mem_map]
    rintro _ ⟨w, hw, rfl⟩
    exact rnd_nonneg (div_nonneg (raw_nonneg hf w hw) tp.le)
  · rw [weights_eq hf hd hs h0 h1, List.length_map]
    exact raw_length hs
  · rw [weights_eq hf hd hs h0 h1]
    simp only [List.mem_map]
    rintro _ ⟨w, hw, rfl⟩
    exact hb _ (raw_mem hw).1 (raw_mem hw).2.1
  · intro e
    apply ha
    unfold Acc.out
    rw [if_pos e]

theorem line_opacity {f : Filter} (hf : Averaging f) {dst src v : Int} (hd : Fits dst) (hs : Fits src) (h0 : 0 ≤ v) (h1 : v < dst) (line : Int → Colour)
    {lo hi : Nat} (hh : hi ≤ 255) (hb : ∀ u, 0 ≤ u → u < src → lo ≤ (line u).a.toNat ∧ (line u).a.toNat ≤ hi) :
    lo ≤ ((gather line (weights f dst src v)).out (gather line (weights f dst src v)).a).a.toNat ∧
      ((gather line (weights f dst src v)).out (gather line (weights f dst src v)).a).a.toNat ≤ hi := by
  rw [weights_eq hf hd hs h0 h1]
  exact out_alpha_resize (raw_nonneg hf) (raw_length hs) (raw_pos hf hd hs h0 h1) hh fun w hw => hb _ (raw_mem hw).1 (raw_mem hw).2.1

/-- What can be said of a picture and stays true when it is cut or resampled with the filter. -/
structure Stable (f : Filter) (R : Pic Colour → Prop) : Prop where
  sub : ∀ {p q : Pic Colour}, R p → (∀ c, q.Has c → p.Has c) → R q
  res : ∀ (img : I) (w h : Int), Fits img.b.dx → Fits img.b.dy → Fits w → Fits h → img.b.dx ≤ 2 ^ 19 → img.b.dy ≤ 2 ^ 19 → R (view img) →
    R (view (resample f img w h))

theorem resizeH_dx (f : Filter) (img : I) (w : Int) : (resizeH f img w).b.dx = w ∧ (resizeH f img w).b.dy = img.b.dy := by
  simp [resizeH, Rect.dx, Rect.dy]
theorem resizeV_dx (f : Filter) (img : I) (h : Int) : (resizeV f img h).b.dx = img.b.dx ∧ (resizeV f img h).b.dy = h := by
  simp [resizeV, Rect.dx, Rect.dy]

theorem resizeH_px (f : Filter) (img : I) (w x y : Int) : (view (resizeH f img w)).px x y =
    (gather (fun u => img.px (img.b.x0 + u) (img.b.y0 + y)) (weights f w img.b.dx x)).out
      (gather (fun u => img.px (img.b.x0 + u) (img.b.y0 + y)) (weights f w img.b.dx x)).a := by
  show (resizeH f img w).px (0 + x) (0 + y) = _
  rw [zero_add, zero_add]
  rfl
theorem resizeV_px (f : Filter) (img : I) (h x y : Int) : (view (resizeV f img h)).px x y =
    (gather (fun u => img.px (img.b.x0 + x) (img.b.y0 + u)) (weights f h img.b.dy y)).out
      (gather (fun u => img.px (img.b.x0 + x) (img.b.y0 + u)) (weights f h img.b.dy y)).a := by
  show (resizeV f img h).px (0 + x) (0 + y) = _
  rw [zero_add, zero_add]
  rfl

theorem passes {f : Filter} (hs : 0 < f.support) {R : Pic Colour → Prop}
    (hH : ∀ (img : I) (w : Int), Fits img.b.dx → Fits w → img.b.dx ≤ 2 ^ 19 → R (view img) → R (view (resizeH f img w)))
    (hV : ∀ (img : I) (h : Int), Fits img.b.dy → Fits h → img.b.dy ≤ 2 ^ 19 → R (view img) → R (view (resizeV f img h)))
    (img : I) (w h : Int) (h1 : Fits img.b.dx) (h2 : Fits img.b.dy) (h3 : Fits w) (h4 : Fits h)
    (g1 : img.b.dx ≤ 2 ^ 19) (g2 : img.b.dy ≤ 2 ^ 19) (hr : R (view img)) : R (view (resample f img w h)) := by
  unfold resample
  rw [if_neg (not_le.2 hs)]
  split
  · exact hV _ _ (by rw [(resizeH_dx f img w).2]; exact h2) h4 (by rw [(resizeH_dx f img w).2]; exact g2) (hH _ _ h1 h3 g1 hr)
  · split
    · exact hH _ _ h1 h3 g1 hr
    · exact hV _ _ h2 h4 g2 hr

theorem stable_shades {f : Filter} (hf : Averaging f) (k : Channel) (lo hi : Nat) : Stable f fun p => p.Shades k lo hi := by
  refine ⟨fun hp hs c hc => hp c (hs c hc), fun img w h h1 h2 h3 h4 g1 g2 hr => ?_⟩
  have hp : 0 < f.support := by linarith [hf.1]
  refine passes (R := fun p => p.Shades k lo hi) hp ?_ ?_ img w h h1 h2 h3 h4 g1 g2 hr
  · intro img w h1 h3 _ hr
    rw [shades_min] at hr ⊢
    rintro c ⟨x, y, x0, x1, y0, y1, rfl⟩ ha
    have x1' : x < w := x1.trans_eq (resizeH_dx f img w).1
    have y1' : y < img.b.dy := y1.trans_eq (resizeH_dx f img w).2
    rw [resizeH_px] at ha ⊢
    exact line_shades hf h3 h1 x0 x1' _ k (by omega) (fun u u0 u1 hu => hr _ (has_px u0 u1 y0 y1') hu) _ ha
  · intro img h h2 h4 _ hr
    rw [shades_min] at hr ⊢
    rintro c ⟨x, y, x0, x1, y0, y1, rfl⟩ ha
    have x1' : x < img.b.dx := x1.trans_eq (resizeV_dx f img h).1
    have y1' : y < h := y1.trans_eq (resizeV_dx f img h).2
    rw [resizeV_px] at ha ⊢
    exact line_shades hf h4 h2 y0 y1' _ k (by omega) (fun u u0 u1 hu => hr _ (has_px x0 x1' u0 u1) hu) _ ha

theorem stable_opacity {f : Filter} (hf : Averaging f) (lo hi : Nat) : Stable f fun p => p.Opacity lo hi := by
  refine ⟨fun hp hs c hc => hp c (hs c hc), fun img w h h1 h2 h3 h4 g1 g2 hr => ?_⟩
  have hp : 0 < f.support := by linarith [hf.1]
  refine passes (R := fun p => p.Opacity lo hi) hp ?_ ?_ img w h h1 h2 h3 h4 g1 g2 hr
  · intro img w h1 h3 _ hr
    rw [opacity_min] at hr ⊢
    rintro c ⟨x, y, x0, x1, y0, y1, rfl⟩
    have x1' : x < w := x1.trans_eq (resizeH_dx f img w).1
    have y1' : y < img.b.dy := y1.trans_eq (resizeH_dx f img w).2
    rw [resizeH_px]
    exact line_opacity hf h3 h1 x0 x1' _ (by omega) fun u u0 u1 => hr _ (has_px u0 u1 y0 y1')
  · intro img h h2 h4 _ hr
    rw [opacity_min] at hr ⊢
    rintro c ⟨x, y, x0, x1, y0, y1, rfl⟩
    have x1' : x < img.b.dx := x1.trans_eq (resizeV_dx f img h).1
    have y1' : y < h := y1.trans_eq (resizeV_dx f img h).2
    rw [resizeV_px]
    exact line_opacity hf h4 h2 y0 y1' _ (by omega) fun u u0 u1 => hr _ (has_px x0 x1' u0 u1)

/-! ## Nearest neighbour -/

/-- Where `resizeNearest` looks. -/
theorem pick_spec {dst src x : Int} (hd : Fits dst) (hs : Fits src) (h0 : 0 ≤ x) (h1 : x < dst) : 0 ≤ pick dst src x ∧ pick dst src x < src := by
  obtain ⟨p0, p1, -⟩ := place_bounds hd hs h0 h1
  have sq : (1 : ℚ) ≤ src := by exact_mod_cast hs.1
  unfold pick
  refine ⟨toInt_nonneg p0, ?_⟩
  have := (toInt_near p0).1
  have : (toInt (mul (rnd (ofInt x + 1 / 2)) (stepOf dst src)) : ℚ) < src := by
    refine lt_of_le_of_lt (this.trans p1) ?_
    linarith
  exact_mod_cast this

theorem pick_mono {dst src x y : Int} (hd : Fits dst) (hs : Fits src) (h0 : 0 ≤ x) (h1 : x ≤ y) (h2 : y < dst) : pick dst src x ≤ pick dst src y := by
  obtain ⟨p0, -, -⟩ := place_bounds hd hs h0 (by omega)
  unfold pick
  apply toInt_mono p0
  unfold mul
  apply rnd_mono
  apply mul_le_mul_of_nonneg_right _ (step_pos hd hs).le
  apply rnd_mono
  have := hd.2
  rw [ofInt_fits (by omega) (by omega), ofInt_fits (by omega) (by omega)]
  have : (x : ℚ) ≤ y := by exact_mod_cast h1
  linarith

/-- The exact place, up to one pixel where the place is the border of two pixels. -/
theorem pick_place {dst src x : Int} (hd : Fits dst) (hs : Fits src) (hd' : dst ≤ 2 ^ 24) (hs' : src ≤ 2 ^ 24) (h0 : 0 ≤ x) (h1 : x < dst) :
    pick dst src x = (2 * x + 1) * src / (2 * dst) ∨ ((2 * x + 1) * src % (2 * dst) = 0 ∧ pick dst src x = (2 * x + 1) * src / (2 * dst) - 1) := by
  obtain ⟨p0, -, n⟩ := place_bounds hd hs h0 h1
  unfold pick
  generalize mul (rnd (ofInt x + 1 / 2)) (stepOf dst src) = X at *
  obtain ⟨t1, t2⟩ := toInt_near p0
  generalize toInt X = t at *
  obtain ⟨d1, d2⟩ := hd
  obtain ⟨s1, s2⟩ := hs
  have dpos : (0 : ℚ) < 2 * dst := by exact_mod_cast (by omega : (0 : Int) < 2 * dst)
  have em := Int.emod_add_mul_ediv ((2 * x + 1) * src) (2 * dst)
  have m0 := Int.emod_nonneg ((2 * x + 1) * src) (show 2 * dst ≠ 0 by omega)
  have m1 := Int.emod_lt_of_pos ((2 * x + 1) * src) (show 0 < 2 * dst by omega)
  have num : (2 * (x : ℚ) + 1) * src ≤ 2 ^ 49 := by
    have a1 : (2 * x + 1) ≤ 2 ^ 25 := by omega
    have a2 : (2 * x + 1) * src ≤ 2 ^ 25 * 2 ^ 24 := Int.mul_le_mul a1 hs' (by omega) (by norm_num)
    exact_mod_cast a2
  set N := (2 * x + 1) * src with hN
  have eN : (2 * (x : ℚ) + 1) * src = (N : ℚ) := by rw [hN]; push_cast; ring
  rw [eN] at n num
  have N0 : 0 ≤ N := Int.mul_nonneg (by omega) (by omega)
  have N0q : (0 : ℚ) ≤ N := by exact_mod_cast N0
  obtain ⟨n1, n2⟩ := n
  have kp : (1 - 1 / 2 ^ 51 : ℚ) ≤ keep ^ 2 := by norm_num [keep]
  have l1 : (N : ℚ) / (2 * dst) * (1 - 1 / 2 ^ 51) ≤ X := (mul_le_mul_of_nonneg_left kp (by positivity)).trans n1
  have l2 : X * (1 - 1 / 2 ^ 51) ≤ (N : ℚ) / (2 * dst) := (mul_le_mul_of_nonneg_left kp p0).trans n2
  have l3 : (N : ℚ) * (1 - 1 / 2 ^ 51) ≤ X * (2 * dst) := by
    have := mul_le_mul_of_nonneg_right l1 dpos.le
    rwa [mul_right_comm, div_mul_cancel₀ _ dpos.ne'] at this
  have l4 : X * (2 * dst) * (1 - 1 / 2 ^ 51) ≤ N := by
    have := mul_le_mul_of_nonneg_right l2 dpos.le
    rwa [div_mul_cancel₀ _ dpos.ne', mul_right_comm] at this
  -- `X * 2 dst` is within 1/2 of `N`
  have c1 : (N : ℚ) - 1 / 2 ≤ X * (2 * dst) := by linarith
  have c2 : X * (2 * dst) < N + 1 := by
    by_contra hc
    rw [not_lt] at hc
    linarith
  have u1 : (t : ℚ) * (2 * dst) < N + 1 := lt_of_le_of_lt (mul_le_mul_of_nonneg_right t1 dpos.le) c2
  have u2 : (N : ℚ) - 1 / 2 < (t + 1) * (2 * dst) := lt_of_le_of_lt c1 (mul_lt_mul_of_pos_right t2 dpos)
  have v1 : t * (2 * dst) < N + 1 := by exact_mod_cast u1
  have v2 : N - 1 < (t + 1) * (2 * dst) := by
    have : (N : ℚ) - 1 < (t + 1) * (2 * dst) := by linarith
    exact_mod_cast this
  -- so `t * D ≤ N ≤ (t+1) * D`
  set D := 2 * dst with hD
  have w1 : t * D ≤ N := by omega
  have w2 : N ≤ (t + 1) * D := by omega
  rcases eq_or_lt_of_le w2 with e | e
  · right
    rw [e]
    refine ⟨Int.mul_emod_left _ _, ?_⟩
    rw [Int.mul_ediv_cancel _ (by omega)]
    omega
  · left
    symm
    rw [Int.ediv_eq_iff_of_pos (by omega)]
    exact ⟨w1, by rw [add_mul, one_mul] at e; exact e⟩

theorem nearest_has {img : I} {w h : Int} (h1 : Fits img.b.dx) (h2 : Fits img.b.dy) (h3 : Fits w) (h4 : Fits h) {c : Colour} (hc : (view (nearest img w h)).Has c) :
    (view img).Has c := by
  obtain ⟨x, y, x0, x1, y0, y1, rfl⟩ := hc
  have x1' : x < w := by simpa [view, nearest, Rect.dx] using x1
  have y1' : y < h := by simpa [view, nearest, Rect.dy] using y1
  obtain ⟨a0, a1⟩ := pick_spec h3 h1 x0 x1'
  obtain ⟨b0, b1⟩ := pick_spec h4 h2 y0 y1'
  have e : (view (nearest img w h)).px x y = (nearest img w h).px x y := by
    show (nearest img w h).px (0 + x) (0 + y) = _
    rw [zero_add, zero_add]
  rw [e]
  exact has_px a0 a1 b0 b1

theorem stable_nearest {f : Filter} (hf : f.support ≤ 0) {R : Pic Colour → Prop} (hR : ∀ {p q : Pic Colour}, R p → (∀ c, q.Has c → p.Has c) → R q) : Stable f R := by
  refine ⟨hR, fun img w h h1 h2 h3 h4 _ _ hr => hR hr fun c hc => ?_⟩
  unfold resample at hc
  rw [if_pos hf] at hc
  exact nearest_has h1 h2 h3 h4 hc

end Gofer.Resample
