import Verif.Model.ImageTr
import Verif.Proof.Image
/-! Lemmas for `Verif/Props/ImageTr.lean`. -/
namespace Gofer.ImageTr
open Gofer.Image Gofer.F64
open Gofer.Spec.Picture

/-- What an image shows. -/
def view (img : I) : Pic Colour := ⟨img.b.dx, img.b.dy, fun x y => img.px (img.b.x0 + x) (img.b.y0 + y)⟩

theorem rnd_close {q : ℚ} (h0 : 0 ≤ q) (h1 : q ≤ 512) : q - 1 / 2 ^ 44 ≤ rnd q ∧ rnd q ≤ q + 1 / 2 ^ 44 := by
  obtain ⟨a, b⟩ := rnd_bounds h0
  norm_num at *
  constructor <;> linarith

theorem luma_near (c : Colour) :
    1000 * ((luma c).toNat : Int) ≤ 299 * c.r.toNat + 587 * c.g.toNat + 114 * c.b.toNat + 500 ∧
      299 * (c.r.toNat : Int) + 587 * c.g.toNat + 114 * c.b.toNat ≤ 1000 * (luma c).toNat + 500 := by
  have r1 : c.r.toNat ≤ 255 := by have := c.r.toNat_lt; omega
  have g1 : c.g.toNat ≤ 255 := by have := c.g.toNat_lt; omega
  have b1 : c.b.toNat ≤ 255 := by have := c.b.toNat_lt; omega
  unfold luma mul
  generalize c.r.toNat = r at *
  generalize c.g.toNat = g at *
  generalize c.b.toNat = b at *
  have rq : (r : ℚ) ≤ 255 := by exact_mod_cast r1
  have gq : (g : ℚ) ≤ 255 := by exact_mod_cast g1
  have bq : (b : ℚ) ≤ 255 := by exact_mod_cast b1
  have r0 : (0 : ℚ) ≤ r := by positivity
  have g0 : (0 : ℚ) ≤ g := by positivity
  have b0 : (0 : ℚ) ≤ b := by positivity
  obtain ⟨p1, p2⟩ := rnd_close (q := 299 / 1000) (by norm_num) (by norm_num)
  obtain ⟨q1, q2⟩ := rnd_close (q := 587 / 1000) (by norm_num) (by norm_num)
  obtain ⟨s1, s2⟩ := rnd_close (q := 114 / 1000) (by norm_num) (by norm_num)
  have key : ∀ (k e : ℚ) (n : ℚ), 0 ≤ n → n ≤ 255 → k - 1 / 2 ^ 44 ≤ e → e ≤ k + 1 / 2 ^ 44 → 1 / 10 ≤ k → k ≤ 1 → 0 ≤ e * n ∧
      k * n - 1 / 2 ^ 35 ≤ rnd (e * n) ∧ rnd (e * n) ≤ k * n + 1 / 2 ^ 35 ∧ 0 ≤ rnd (e * n) := by
    intro k e n n0 n1 h1 h2 h3 h4
    have e0 : 0 ≤ e := by norm_num at *; linarith
    have z0 : 0 ≤ e * n := mul_nonneg e0 n0
    have u1 : (k - 1 / 2 ^ 44) * n ≤ e * n := mul_le_mul_of_nonneg_right h1 n0
    have u2 : e * n ≤ (k + 1 / 2 ^ 44) * n := mul_le_mul_of_nonneg_right h2 n0
    have u3 : k * n ≤ n := by nlinarith
    obtain ⟨v1, v2⟩ := rnd_close (q := e * n) z0 (by linarith)
    refine ⟨z0, ?_, ?_, rnd_nonneg z0⟩ <;> norm_num at * <;> linarith
  obtain ⟨_, a1, a2, a0⟩ := key _ _ r r0 rq p1 p2 (by norm_num) (by norm_num)
  obtain ⟨_, c1, c2, c0⟩ := key _ _ g g0 gq q1 q2 (by norm_num) (by norm_num)
  obtain ⟨_, d1, d2, d0⟩ := key _ _ b b0 bq s1 s2 (by norm_num) (by norm_num)
  push_cast
  generalize rnd (rnd (299 / 1000) * (r : ℚ)) = A at *
  generalize rnd (rnd (587 / 1000) * (g : ℚ)) = B at *
  generalize rnd (rnd (114 / 1000) * (b : ℚ)) = C at *
  clear p1 p2 q1 q2 s1 s2 key
  obtain ⟨e1, e2⟩ := rnd_close (q := A + B) (by linarith) (by linarith)
  have e0 : 0 ≤ rnd (A + B) := rnd_nonneg (by linarith)
  generalize rnd (A + B) = D at *
  obtain ⟨f1, f2⟩ := rnd_close (q := D + C) (by linarith) (by linarith)
  have f0 : 0 ≤ rnd (D + C) := rnd_nonneg (by linarith)
  generalize rnd (D + C) = E at *
  obtain ⟨g1', g2'⟩ := rnd_close (q := E + 1 / 2) (by linarith) (by linarith)
  have h0 : 0 ≤ rnd (E + 1 / 2) := rnd_nonneg (by linarith)
  generalize rnd (E + 1 / 2) = F at *
  obtain ⟨t1, t2⟩ := toInt_near h0
  have t0 := toInt_nonneg h0
  generalize toInt F = y at *
  have hi : 1000 * y < 299 * (r : Int) + 587 * g + 114 * b + 501 := by
    have : (1000 * y : ℚ) < 299 * r + 587 * g + 114 * b + 501 := by linarith
    exact_mod_cast this
  have lo : 299 * (r : Int) + 587 * g + 114 * b < 1000 * y + 501 := by
    have : (299 * r + 587 * g + 114 * b : ℚ) < 1000 * y + 501 := by linarith
    exact_mod_cast this
  have hy : ((UInt8.ofInt y).toNat : Int) = y := by
    obtain ⟨n, rfl⟩ := Int.eq_ofNat_of_zero_le t0
    show ((UInt8.ofInt (n : Int)).toNat : Int) = n
    unfold UInt8.ofInt
    rw [UInt8.toNat_ofNat']
    omega
  rw [hy]
  constructor <;> omega

/-- `math.Floor(angle/360)`. -/
theorem floor_turn {d : Int} (h1 : -9000000000000000 ≤ d) (h2 : d ≤ 9000000000000000) : (div (d : ℚ) 360).floor = d / 360 := by
  have hd := Int.emod_add_mul_ediv d 360
  have m0 := Int.emod_nonneg d (show (360 : Int) ≠ 0 by decide)
  have m1 := Int.emod_lt_of_pos d (show (0 : Int) < 360 by decide)
  have e : (d : ℚ) / 360 = (d / 360 : Int) + ((d % 360 : Int) : ℚ) / 360 := by
    have : (d : ℚ) = ((d % 360 + 360 * (d / 360) : Int) : ℚ) := by rw [hd]
    rw [this]; push_cast; ring
  have lo : ((d / 360 : Int) : ℚ) ≤ div d 360 := by
    apply le_rnd_int (by omega) (by omega)
    rw [e]
    have : (0 : ℚ) ≤ ((d % 360 : Int) : ℚ) := by exact_mod_cast m0
    linarith [show (0 : ℚ) ≤ ((d % 360 : Int) : ℚ) / 360 by positivity]
  have hi : div d 360 < (d / 360 : Int) + 1 := by
    have m2 : ((d % 360 : Int) : ℚ) ≤ 359 := by exact_mod_cast (by omega : d % 360 ≤ 359)
    have q1 : (d : ℚ) / 360 ≤ (d / 360 : Int) + 359 / 360 := by rw [e]; linarith
    have dq1 : (-9000000000000000 : ℚ) ≤ d := by exact_mod_cast h1
    have dq2 : (d : ℚ) ≤ 9000000000000000 := by exact_mod_cast h2
    have close : rnd ((d : ℚ) / 360) ≤ d / 360 + 9000000000000000 / 360 / 2 ^ 53 := by
      rcases lt_trichotomy d 0 with hn | hn | hn
      · have hn' : (d : ℚ) < 0 := by exact_mod_cast hn
        have := abs_le.1 (rnd_rel (q := -((d : ℚ) / 360)) (by linarith))
        rw [rnd_neg] at this
        norm_num at *
        linarith
      · subst hn; rw [Int.cast_zero, zero_div, rnd_zero]; norm_num
      · have hn' : (0 : ℚ) < d := by exact_mod_cast hn
        have := abs_le.1 (rnd_rel (q := (d : ℚ) / 360) (by positivity))
        norm_num at *
        linarith
    unfold div
    norm_num at *
    linarith
  have := floor_le' (div (d : ℚ) 360)
  have := lt_floor' (div (d : ℚ) 360)
  have a : ((div (d : ℚ) 360).floor : ℚ) < ((d / 360 + 1 : Int) : ℚ) := by push_cast; linarith
  have b : ((d / 360 : Int) : ℚ) < (((div (d : ℚ) 360).floor + 1 : Int) : ℚ) := by push_cast; linarith
  have a' : (div (d : ℚ) 360).floor < d / 360 + 1 := by exact_mod_cast a
  have b' : d / 360 < (div (d : ℚ) 360).floor + 1 := by exact_mod_cast b
  omega

theorem angleOf_eq {d : Int} (h1 : -9000000000000000 ≤ d) (h2 : d ≤ 9000000000000000) : angleOf d = ((d % 360 : Int) : ℚ) := by
  unfold angleOf
  rw [ofInt_exact (by omega) (by omega), floor_turn h1 h2]
  unfold mul
  have hd := Int.emod_add_mul_ediv d 360
  have m0 := Int.emod_nonneg d (show (360 : Int) ≠ 0 by decide)
  have m1 := Int.emod_lt_of_pos d (show (0 : Int) < 360 by decide)
  have e : ((d / 360 : Int) : ℚ) * 360 = ((d / 360 * 360 : Int) : ℚ) := by push_cast; ring
  rw [e, rnd_int (by omega) (by omega), ← Int.cast_sub, rnd_int (by omega) (by omega)]
  congr 1
  omega

/-! ## What the operations show -/

theorem ext_view {img : I} {p : Pic Colour} (hw : img.b.dx = p.w) (hh : img.b.dy = p.h) (hp : ∀ x y, img.px (img.b.x0 + x) (img.b.y0 + y) = p.px x y) :
    view img = p := by
  obtain ⟨w, h, px⟩ := p
  simp only at hw hh hp
  subst hw hh
  have : (fun x y => img.px (img.b.x0 + x) (img.b.y0 + y)) = px := funext fun x => funext fun y => hp x y
  subst this
  rfl

theorem view_clone (img : I) : view (clone img) = view img := by
  apply ext_view
  · simp [clone, view, Rect.dx]
  · simp [clone, view, Rect.dy]
  · intro x y; simp [clone, view]

theorem view_flipH (img : I) : view (flipH img) = (view img).mirror := by
  apply ext_view
  · simp [flipH, view, Pic.mirror, Rect.dx]
  · simp [flipH, view, Pic.mirror, Rect.dy]
  · intro x y; simp [flipH, view, Pic.mirror]

theorem view_flipV (img : I) : view (flipV img) = (view img).topple := by
  apply ext_view
  · simp [flipV, view, Pic.topple, Rect.dx]
  · simp [flipV, view, Pic.topple, Rect.dy]
  · intro x y; simp [flipV, view, Pic.topple]

theorem view_rotate90 (img : I) : view (rotate90 img) = (view img).turn := by
  apply ext_view
  · simp [rotate90, view, Pic.turn, Rect.dx]
  · simp [rotate90, view, Pic.turn, Rect.dy]
  · intro x y
    simp only [rotate90, view, Pic.turn, zero_add]
    rw [show img.b.dx - y - 1 = img.b.dx - 1 - y by omega]

theorem view_rotate180 (img : I) : view (rotate180 img) = ((view img).turn).turn := by
  apply ext_view
  · simp [rotate180, view, Pic.turn, Rect.dx]
  · simp [rotate180, view, Pic.turn, Rect.dy]
  · intro x y
    simp only [rotate180, view, Pic.turn, zero_add]
    rw [show img.b.dy - y - 1 = img.b.dy - 1 - y by omega]

theorem view_rotate270 (img : I) : view (rotate270 img) = (((view img).turn).turn).turn := by
  apply ext_view
  · simp [rotate270, view, Pic.turn, Rect.dx]
  · simp [rotate270, view, Pic.turn, Rect.dy]
  · intro x y
    simp only [rotate270, view, Pic.turn, zero_add]
    rw [show img.b.dx - 1 - (img.b.dx - 1 - y) = y by omega]

/-- The grey of a colour. -/
def greyOf (c : Colour) : Colour := ⟨luma c, luma c, luma c, c.a⟩

theorem greyOf_spec (c : Colour) : GreyOf c (greyOf c) := by
  have := luma_near c
  refine ⟨rfl, rfl, rfl, ?_, ?_⟩ <;> simp only [greyOf] <;> omega

theorem view_gray (img : I) : view (gray img) = (view img).map greyOf := by
  apply ext_view
  · simp [gray, view, Pic.map, Rect.dx]
  · simp [gray, view, Pic.map, Rect.dy]
  · intro x y; simp [gray, view, Pic.map, greyOf]

theorem view_invert (img : I) : view (invert img) = (view img).map Colour.negative := by
  apply ext_view
  · simp [invert, view, Pic.map, Rect.dx]
  · simp [invert, view, Pic.map, Rect.dy]
  · intro x y; simp [invert, view, Pic.map, Colour.negative]

theorem view_rotate (lib : Lib) (img : I) {k : Int} (h1 : -100000000000000 ≤ k) (h2 : k ≤ 100000000000000) :
    view (rotate lib img (90 * k)) = Pic.turns (k % 4).toNat (view img) := by
  unfold rotate
  rw [angleOf_eq (by omega) (by omega)]
  have m0 := Int.emod_nonneg k (show (4 : Int) ≠ 0 by decide)
  have m1 := Int.emod_lt_of_pos k (show (0 : Int) < 4 by decide)
  have hk : 90 * k % 360 = 90 * (k % 4) := by omega
  rw [hk]
  obtain h | h | h | h : k % 4 = 0 ∨ k % 4 = 1 ∨ k % 4 = 2 ∨ k % 4 = 3 := by omega
  all_goals rw [h]
  · rw [if_pos (by norm_num)]
    exact view_clone img
  · rw [if_neg (by norm_num), if_pos (by norm_num)]
    exact view_rotate90 img
  · rw [if_neg (by norm_num), if_neg (by norm_num), if_pos (by norm_num)]
    exact view_rotate180 img
  · rw [if_neg (by norm_num), if_neg (by norm_num), if_neg (by norm_num), if_pos (by norm_num)]
    exact view_rotate270 img

/-- The colours and the position, once the size is settled. -/
def finish (lib : Lib) (o : Options) (img : I) : I :=
  let img := if o.gray then gray img else img
  let img := if o.invert then invert img else img
  let img := if o.rotate ≠ 0 then rotate lib img o.rotate else img
  let img := if o.flipH then flipH img else img
  let img := if o.flipV then flipV img else img
  if 0 < o.blur then lib.blur o.blur img else img

/-- Cropping and scaling. -/
def start (lib : Lib) (filter mode width height : Int) (o : Options) (img : I) : I :=
  let img := cropStep cropImageByAnchor o.cropAnchor img
  let img := cropStep cropImageBySide o.cropSide img
  let img := scaleStep lib false o.scaleUpper img
  let img := scaleStep lib true o.scaleLower img
  sizeStep lib filter mode width height img

theorem tr_eq (lib : Lib) (filter mode width height : Int) (o : Options) (img : I) :
    tr lib filter mode width height o img = finish lib o (start lib filter mode width height o img) := rfl

theorem view_finish (lib : Lib) (o : Options) (img : I) {k : Int} (hk : o.rotate = 90 * k) (h1 : -100000000000000 ≤ k) (h2 : k ≤ 100000000000000)
    (hb : o.blur ≤ 0) :
    view (finish lib o img) = when o.flipV Pic.topple (when o.flipH Pic.mirror (Pic.turns (k % 4).toNat
      (when o.invert (Pic.map Colour.negative) (when o.gray (Pic.map greyOf) (view img))))) := by
  unfold finish
  simp only
  rw [if_neg (not_lt.2 hb)]
  have g : ∀ (b : Bool) (f : I → I) (F : Pic Colour → Pic Colour) (_ : ∀ i, view (f i) = F (view i)) (i : I),
      view (if b then f i else i) = when b F (view i) := by
    intro b f F hf i
    unfold when
    cases b
    · rfl
    · exact hf i
  rw [g o.flipV flipV Pic.topple view_flipV, g o.flipH flipH Pic.mirror view_flipH]
  congr 2
  rw [← g o.gray gray (Pic.map greyOf) view_gray, ← g o.invert invert (Pic.map Colour.negative) view_invert]
  split
  · rw [hk, view_rotate lib _ h1 h2]
  · have : k = 0 := by
      have : o.rotate = 0 := by simpa using ‹¬ o.rotate ≠ 0›
      omega
    subst this
    rfl

/-! ## Sizes -/

/-- Resampled and filled images have the size that was asked for, and blurring keeps it. -/
def Sized (lib : Lib) : Prop :=
  (∀ f i w h, 0 ≤ w → 0 ≤ h → (lib.resample f i w h).b.dx = w ∧ (lib.resample f i w h).b.dy = h) ∧
  (∀ f i w h, 0 ≤ w → 0 ≤ h → (lib.fill f i w h).b.dx = w ∧ (lib.fill f i w h).b.dy = h) ∧
  ∀ s i, (lib.blur s i).b.dx = i.b.dx ∧ (lib.blur s i).b.dy = i.b.dy

theorem imagingCrop_le (img : I) (r : Rect) (hw : 0 ≤ img.b.dx) (hh : 0 ≤ img.b.dy) :
    (0 ≤ (imagingCrop img r).b.dx ∧ (imagingCrop img r).b.dx ≤ img.b.dx) ∧ (0 ≤ (imagingCrop img r).b.dy ∧ (imagingCrop img r).b.dy ≤ img.b.dy) := by
  unfold imagingCrop
  simp only
  split
  · simp only [Rect.dx, Rect.dy] at *; omega
  · rename_i he
    have hx : (r.inter img.b).x0 < (r.inter img.b).x1 ∧ (r.inter img.b).y0 < (r.inter img.b).y1 := by
      unfold Rect.empty at he
      simp at he
      exact he
    unfold Rect.inter at hx ⊢
    simp only at hx ⊢
    split at hx
    · simp at hx
    · rename_i hc
      rw [if_neg hc]
      simp only [Rect.dx, Rect.dy] at *
      omega

theorem anchor_le (img : I) (a b c d : Int) (hw : 0 ≤ img.b.dx) (hh : 0 ≤ img.b.dy) :
    (0 ≤ (cropImageByAnchor img a b c d).b.dx ∧ (cropImageByAnchor img a b c d).b.dx ≤ img.b.dx) ∧
      (0 ≤ (cropImageByAnchor img a b c d).b.dy ∧ (cropImageByAnchor img a b c d).b.dy ≤ img.b.dy) := by
  unfold cropImageByAnchor
  split <;> exact imagingCrop_le img _ hw hh

theorem side_le' (img : I) (a b c d : Int) (hw : 0 ≤ img.b.dx) (hh : 0 ≤ img.b.dy) :
    (0 ≤ (cropImageBySide img a b c d).b.dx ∧ (cropImageBySide img a b c d).b.dx ≤ img.b.dx) ∧
      (0 ≤ (cropImageBySide img a b c d).b.dy ∧ (cropImageBySide img a b c d).b.dy ≤ img.b.dy) := by
  unfold cropImageBySide
  exact imagingCrop_le img _ hw hh

theorem cropStep_le (l : List Int) (img : I) (hw : 0 ≤ img.b.dx) (hh : 0 ≤ img.b.dy) {f : I → Int → Int → Int → Int → I}
    (hf : ∀ i a b c d, 0 ≤ i.b.dx → 0 ≤ i.b.dy → (0 ≤ (f i a b c d).b.dx ∧ (f i a b c d).b.dx ≤ i.b.dx) ∧ (0 ≤ (f i a b c d).b.dy ∧ (f i a b c d).b.dy ≤ i.b.dy)) :
    (0 ≤ (cropStep f l img).b.dx ∧ (cropStep f l img).b.dx ≤ img.b.dx) ∧ (0 ≤ (cropStep f l img).b.dy ∧ (cropStep f l img).b.dy ≤ img.b.dy) := by
  unfold cropStep
  split
  · exact hf _ _ _ _ _ hw hh
  · omega

theorem scaleStep_short (lib : Lib) (b : Bool) {l : List Int} {i : I} (hl : l.length < 2) : scaleStep lib b l i = i := by
  unfold scaleStep
  split
  · simp at hl
  · simp only [List.length_cons] at hl; omega
  · rfl

theorem clone_size (img : I) : (clone img).b.dx = img.b.dx ∧ (clone img).b.dy = img.b.dy := by simp [clone, Rect.dx, Rect.dy]

theorem resizeSize_nonneg (w h nw nh : Int) : 0 ≤ (resizeSize w h nw nh).1 ∧ 0 ≤ (resizeSize w h nw nh).2 := by
  have m : ∀ q : ℚ, 0 ≤ toInt (max 1 q) := fun q => toInt_nonneg (le_trans zero_le_one (le_max_left _ _))
  unfold resizeSize
  split
  · exact ⟨le_refl _, le_refl _⟩
  · rename_i hn
    split
    · exact ⟨le_refl _, le_refl _⟩
    · split
      · exact ⟨le_refl _, le_refl _⟩
      · split
        · exact ⟨m _, by simp only; omega⟩
        · split
          · exact ⟨by simp only; omega, m _⟩
          · exact ⟨by simp only; omega, by simp only; omega⟩

theorem resize_size {lib : Lib} (hl : Sized lib) (filter : Int) (img : I) (nw nh : Int) :
    ((resize lib filter img nw nh).b.dx, (resize lib filter img nw nh).b.dy) = resizeSize img.b.dx img.b.dy nw nh := by
  unfold resize
  by_cases h1 : nw < 0 ∨ nh < 0
  · rw [if_pos h1]; unfold resizeSize; rw [if_pos h1]; rfl
  · rw [if_neg h1]
    by_cases h2 : nw = 0 ∧ nh = 0
    · rw [if_pos h2]; unfold resizeSize; rw [if_neg h1, if_pos h2]; rfl
    · rw [if_neg h2]
      by_cases h3 : img.b.dx ≤ 0 ∨ img.b.dy ≤ 0
      · rw [if_pos h3]; unfold resizeSize; rw [if_neg h1, if_neg h2, if_pos h3]; rfl
      · rw [if_neg h3]
        split
        · rename_i h4
          rw [h4, (clone_size img).1, (clone_size img).2]
        · have := hl.1 filter img _ _ (resizeSize_nonneg img.b.dx img.b.dy nw nh).1 (resizeSize_nonneg img.b.dx img.b.dy nw nh).2
          rw [this.1, this.2]

theorem fill_size {lib : Lib} (hl : Sized lib) (filter : Int) (img : I) (nw nh : Int) :
    ((fill lib filter img nw nh).b.dx, (fill lib filter img nw nh).b.dy) = fillSize img.b.dx img.b.dy nw nh := by
  unfold fill fillSize
  by_cases h1 : nw ≤ 0 ∨ nh ≤ 0
  · rw [if_pos h1, if_pos h1]; rfl
  · rw [if_neg h1, if_neg h1]
    by_cases h3 : img.b.dx ≤ 0 ∨ img.b.dy ≤ 0
    · rw [if_pos h3, if_pos h3]; rfl
    · rw [if_neg h3, if_neg h3]
      split
      · rename_i h4
        rw [(clone_size img).1, (clone_size img).2, h4.1, h4.2]
      · have := hl.2.1 filter img nw nh (by omega) (by omega)
        rw [this.1, this.2]

theorem sizeStep_size {lib : Lib} (hl : Sized lib) (filter mode width height : Int) (i : I) (_ : 1 ≤ i.b.dx) (_ : 1 ≤ i.b.dy) :
    ((sizeStep lib filter mode width height i).b.dx, (sizeStep lib filter mode width height i).b.dy) = modeSize mode i.b.dx i.b.dy width height := by
  unfold sizeStep modeSize
  split
  · generalize praseMode mode i.b.dx i.b.dy width height = p
    obtain ⟨nw, nh, t⟩ := p
    cases t
    · exact resize_size hl _ i nw nh
    · exact fill_size hl _ i nw nh
  · rfl

theorem sizeStep_empty (lib : Lib) (filter mode width height : Int) (i : I) (h : i.b.dx ≤ 0 ∨ i.b.dy ≤ 0) :
    ((sizeStep lib filter mode width height i).b.dx = i.b.dx ∧ (sizeStep lib filter mode width height i).b.dy = i.b.dy) ∨
      ((sizeStep lib filter mode width height i).b.dx = 0 ∧ (sizeStep lib filter mode width height i).b.dy = 0) := by
  unfold sizeStep
  split
  · right
    generalize praseMode mode i.b.dx i.b.dy width height = p
    obtain ⟨nw, nh, t⟩ := p
    cases t
    · simp only
      unfold resize
      split
      · exact ⟨rfl, rfl⟩
      · split
        · exact ⟨rfl, rfl⟩
        · exact ⟨rfl, rfl⟩
    · simp only
      unfold fill
      split
      · exact ⟨rfl, rfl⟩
      · exact ⟨rfl, rfl⟩
  · exact Or.inl ⟨rfl, rfl⟩

theorem when_size {f : Pic Colour → Pic Colour} (hf : ∀ p, (f p).w = p.w ∧ (f p).h = p.h) (b : Bool) (p : Pic Colour) :
    (when b f p).w = p.w ∧ (when b f p).h = p.h := by
  unfold when
  cases b
  · exact ⟨rfl, rfl⟩
  · exact hf p

theorem turns_size (p : Pic Colour) (n : Nat) : (Pic.turns n p).w = (if n % 2 = 0 then p.w else p.h) ∧ (Pic.turns n p).h = (if n % 2 = 0 then p.h else p.w) := by
  induction n with
  | zero => exact ⟨rfl, rfl⟩
  | succ n ih =>
    have e : (Pic.turns (n + 1) p).w = (Pic.turns n p).h ∧ (Pic.turns (n + 1) p).h = (Pic.turns n p).w := ⟨rfl, rfl⟩
    rw [e.1, e.2, ih.1, ih.2]
    constructor
    · split <;> split <;> first | rfl | omega
    · split <;> split <;> first | rfl | omega

theorem finish_size {lib : Lib} (hl : Sized lib) (o : Options) (img : I) {k : Int} (hk : o.rotate = 90 * k) (h1 : -100000000000000 ≤ k) (h2 : k ≤ 100000000000000) :
    (view (finish lib o img)).w = (if k % 2 = 0 then img.b.dx else img.b.dy) ∧ (view (finish lib o img)).h = (if k % 2 = 0 then img.b.dy else img.b.dx) := by
  have e : finish lib o img = if 0 < o.blur then lib.blur o.blur (finish lib { o with blur := 0 } img) else finish lib { o with blur := 0 } img := by
    unfold finish
    simp
  have v := view_finish lib { o with blur := 0 } img hk h1 h2 (le_refl _)
  have sz : (view (finish lib o img)).w = (view (finish lib { o with blur := 0 } img)).w ∧ (view (finish lib o img)).h = (view (finish lib { o with blur := 0 } img)).h := by
    rw [e]
    split
    · exact hl.2.2 _ _
    · exact ⟨rfl, rfl⟩
  rw [sz.1, sz.2, v]
  have a := when_size (f := Pic.topple) (fun _ => ⟨rfl, rfl⟩) o.flipV
  have b := when_size (f := Pic.mirror) (fun _ => ⟨rfl, rfl⟩) o.flipH
  have c := when_size (f := Pic.map Colour.negative) (fun _ => ⟨rfl, rfl⟩) o.invert
  have d := when_size (f := Pic.map greyOf) (fun _ => ⟨rfl, rfl⟩) o.gray
  rw [(a _).1, (a _).2, (b _).1, (b _).2, (turns_size _ _).1, (turns_size _ _).2, (c _).1, (c _).2, (d _).1, (d _).2]
  have m : ((k % 4).toNat % 2 = 0) = (k % 2 = 0) := by
    apply propext
    omega
  simp only [m]
  exact ⟨rfl, rfl⟩

end Gofer.ImageTr
