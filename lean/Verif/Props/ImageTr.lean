import Verif.Proof.ImageTr
import Verif.Props.Image
/-!
# Property theorems: what `Image.Encode` does to the picture (C174 - C177)
-/
namespace Gofer.Props.ImageTr
open Gofer.ImageTr Gofer.Image
open Gofer.Spec.Picture Gofer.Spec.Image

/-! ## C174: turning, mirroring, negative, greys -/

/-- No cropping, scaling or blurring is asked for. -/
def Plain (o : Options) : Prop :=
  o.cropAnchor.length ≠ 4 ∧ o.cropSide.length ≠ 4 ∧ o.scaleUpper.length < 2 ∧ o.scaleLower.length < 2 ∧ o.blur ≤ 0

/-- The picture that is asked for: first the greys, then the negative, then the turns (to the left), then left and right, then top and bottom. -/
def wanted (grey : Colour → Colour) (o : Options) (k : Int) (p : Pic Colour) : Pic Colour :=
  when o.flipV Pic.topple (when o.flipH Pic.mirror (Pic.turns (k % 4).toNat
    (when o.invert (Pic.map Colour.negative) (when o.gray (Pic.map grey) p))))

/-- For every picture, every multiple of 90 degrees, and every choice of the other options. -/
def C174_claim : Prop :=
  ∃ grey : Colour → Colour, (∀ c, GreyOf c (grey c)) ∧
    ∀ (lib : Lib) (filter mode width height : Int) (o : Options) (img : I) (k : Int), Plain o → width ≤ 0 → height ≤ 0 →
      o.rotate = 90 * k → -2 ^ 63 ≤ o.rotate → o.rotate < 2 ^ 63 →
      (view (tr lib filter mode width height o img)).Same (wanted grey o k (view img))

/-- `float64(degrees)` is not the angle if it is above 2⁵³. -/
theorem C174_claim_false : ¬ C174_claim := by
  rintro ⟨grey, _, h⟩
  have := (h ⟨fun _ i _ _ => i, fun _ i _ _ => i, fun _ i => i, fun _ i => noImage i⟩ 0 0 0 0 { rotate := 27000000000000090 }
    ⟨⟨0, 0, 1, 1⟩, fun _ _ => ⟨0, 0, 0, 0⟩⟩ 300000000000001 ⟨by decide, by decide, by decide, by decide, by decide⟩ (by decide) (by decide)
    (by decide) (by decide) (by decide)).1
  rw [show (wanted grey _ _ _).w = 1 from rfl] at this
  revert this
  decide +kernel

theorem start_plain (lib : Lib) (filter mode : Int) {width height : Int} {o : Options} (img : I) (ho : Plain o) (hw : width ≤ 0) (hh : height ≤ 0) :
    start lib filter mode width height o img = img := by
  obtain ⟨h1, h2, h3, h4, _⟩ := ho
  have c : ∀ (f : I → Int → Int → Int → Int → I) (l : List Int) (i : I), l.length ≠ 4 → cropStep f l i = i := by
    intro f l i hl
    unfold cropStep
    split
    · exact absurd rfl hl
    · rfl
  have s : ∀ (b : Bool) (l : List Int) (i : I), l.length < 2 → scaleStep lib b l i = i := by
    intro b l i hl
    unfold scaleStep
    split
    · simp at hl
    · simp only [List.length_cons] at hl; omega
    · rfl
  unfold start
  simp only
  rw [c _ _ _ h1, c _ _ _ h2, s _ _ _ h3, s _ _ _ h4]
  unfold sizeStep
  rw [if_neg (by omega)]

theorem C174_picture_partial :
    ∃ grey : Colour → Colour, (∀ c, GreyOf c (grey c)) ∧
      ∀ (lib : Lib) (filter mode width height : Int) (o : Options) (img : I) (k : Int), Plain o → width ≤ 0 → height ≤ 0 →
        o.rotate = 90 * k → -9000000000000000 ≤ o.rotate → o.rotate ≤ 9000000000000000 →
        (view (tr lib filter mode width height o img)).Same (wanted grey o k (view img)) := by
  refine ⟨greyOf, greyOf_spec, fun lib filter mode width height o img k ho hw hh hk h1 h2 => ?_⟩
  rw [tr_eq, start_plain lib filter mode img ho hw hh, view_finish lib o img hk (by omega) (by omega) ho.2.2.2.2]
  exact ⟨rfl, rfl, fun _ _ _ _ _ _ => rfl⟩

/-- Any number of degrees is the same as its remainder modulo 360, whatever the library does for angles that are not multiples of 90. -/
theorem C174_degrees (lib : Lib) (img : I) {d : Int} (h1 : -9000000000000000 ≤ d) (h2 : d ≤ 9000000000000000) :
    rotate lib img d = rotate lib img (d % 360) := by
  unfold rotate
  rw [angleOf_eq h1 h2, angleOf_eq (d := d % 360) (by omega) (by omega), Int.emod_emod_of_dvd d (dvd_refl 360)]

/-- A grey lies between the smallest and the largest of the three colours, and the grey of a grey is the same. -/
theorem C174_grey {c d : Colour} (h : GreyOf c d) :
    min c.r.toNat (min c.g.toNat c.b.toNat) ≤ d.r.toNat ∧ d.r.toNat ≤ max c.r.toNat (max c.g.toNat c.b.toNat) ∧ ∀ e, GreyOf d e → e = d := by
  obtain ⟨h1, h2, h3, h4, h5⟩ := h
  refine ⟨by omega, by omega, ?_⟩
  · rintro e ⟨e1, e2, e3, e4, e5⟩
    rw [h1, h2] at e4 e5
    have : e.r = d.r := by
      apply UInt8.toNat_inj.1
      omega
    obtain ⟨er, eg, eb, ea⟩ := e
    obtain ⟨dr, dg, db, da⟩ := d
    simp only at *
    subst this e1 e2 e3 h1 h2
    rfl

/-- Turning by 180 degrees is mirroring both ways; turning by 90 and by 270, mirroring twice and the negative of the negative give the picture back. -/
theorem C174_laws (lib : Lib) (filter mode : Int) (img : I) :
    (view (tr lib filter mode 0 0 { rotate := 180 } img)).Same (view (tr lib filter mode 0 0 { flipH := true, flipV := true } img)) ∧
    (view (tr lib filter mode 0 0 { rotate := 270 } (tr lib filter mode 0 0 { rotate := 90 } img))).Same (view img) ∧
    (view (tr lib filter mode 0 0 { rotate := -90 } (tr lib filter mode 0 0 { rotate := 90 } img))).Same (view img) ∧
    (view (tr lib filter mode 0 0 { flipH := true } (tr lib filter mode 0 0 { flipH := true } img))).Same (view img) ∧
    (view (tr lib filter mode 0 0 { flipV := true } (tr lib filter mode 0 0 { flipV := true } img))).Same (view img) ∧
    (view (tr lib filter mode 0 0 { invert := true } (tr lib filter mode 0 0 { invert := true } img))).Same (view img) ∧
    (view (tr lib filter mode 0 0 { gray := true } (tr lib filter mode 0 0 { gray := true } img))).Same
      (view (tr lib filter mode 0 0 { gray := true } img)) := by
  have key : ∀ (o : Options) (k : Int) (i : I), Plain o → o.rotate = 90 * k → -100000000000000 ≤ k → k ≤ 100000000000000 →
      view (tr lib filter mode 0 0 o i) = wanted greyOf o k (view i) := by
    intro o k i ho hk h1 h2
    rw [tr_eq, start_plain lib filter mode i ho (le_refl _) (le_refl _), view_finish lib o i hk h1 h2 ho.2.2.2.2]
    rfl
  have pl : ∀ (a b : Bool) (r : Int) (c d : Bool), Plain { gray := a, invert := b, rotate := r, flipH := c, flipV := d } :=
    fun a b r c d => by simp [Plain]
  have four : ∀ (p : Pic Colour) (x y : Int), p.turn.turn.turn.turn.px x y = p.px x y := by
    intro p x y
    show p.px (p.w - 1 - (p.w - 1 - x)) (p.h - 1 - (p.h - 1 - y)) = p.px x y
    rw [sub_sub_cancel, sub_sub_cancel]
  have neg : ∀ c : Colour, c.negative.negative = c := by
    intro c
    obtain ⟨r, g, b, a⟩ := c
    have : ∀ x : UInt8, 255 - (255 - x) = x := by
      intro x
      grind
    simp only [Colour.negative, this]
  refine ⟨?_, ?_, ?_, ?_, ?_, ?_, ?_⟩
  · rw [key { rotate := 180 } 2 img (pl _ _ _ _ _) rfl (by decide) (by decide), key { flipH := true, flipV := true } 0 img (pl _ _ _ _ _) rfl (by decide) (by decide)]
    exact ⟨rfl, rfl, fun _ _ _ _ _ _ => rfl⟩
  · rw [key { rotate := 270 } 3 _ (pl _ _ _ _ _) rfl (by decide) (by decide), key { rotate := 90 } 1 img (pl _ _ _ _ _) rfl (by decide) (by decide)]
    refine ⟨rfl, rfl, fun x y _ _ _ _ => ?_⟩
    exact four _ x y
  · rw [key { rotate := -90 } (-1) _ (pl _ _ _ _ _) rfl (by decide) (by decide), key { rotate := 90 } 1 img (pl _ _ _ _ _) rfl (by decide) (by decide)]
    refine ⟨rfl, rfl, fun x y _ _ _ _ => ?_⟩
    exact four _ x y
  · rw [key { flipH := true } 0 _ (pl _ _ _ _ _) rfl (by decide) (by decide), key { flipH := true } 0 img (pl _ _ _ _ _) rfl (by decide) (by decide)]
    refine ⟨rfl, rfl, fun x y _ _ _ _ => ?_⟩
    show (view img).px _ _ = (view img).px x y
    congr 1
    show img.b.dx - 1 - (img.b.dx - 1 - x) = x
    omega
  · rw [key { flipV := true } 0 _ (pl _ _ _ _ _) rfl (by decide) (by decide), key { flipV := true } 0 img (pl _ _ _ _ _) rfl (by decide) (by decide)]
    refine ⟨rfl, rfl, fun x y _ _ _ _ => ?_⟩
    show (view img).px _ _ = (view img).px x y
    congr 1
    show img.b.dy - 1 - (img.b.dy - 1 - y) = y
    omega
  · rw [key { invert := true } 0 _ (pl _ _ _ _ _) rfl (by decide) (by decide), key { invert := true } 0 img (pl _ _ _ _ _) rfl (by decide) (by decide)]
    exact ⟨rfl, rfl, fun x y _ _ _ _ => neg _⟩
  · rw [key { gray := true } 0 (tr lib filter mode 0 0 { gray := true } img) (pl _ _ _ _ _) rfl (by decide) (by decide), key { gray := true } 0 img (pl _ _ _ _ _) rfl (by decide) (by decide)]
    have e : ∀ p : Pic Colour, wanted greyOf { gray := true } 0 p = p.map greyOf := fun p => rfl
    rw [e, e]
    refine ⟨rfl, rfl, fun x y _ _ _ _ => ?_⟩
    show greyOf (greyOf ((view img).px x y)) = greyOf ((view img).px x y)
    exact (C174_grey (greyOf_spec _)).2.2 _ (greyOf_spec _)

/-- A library for examples. -/
def someLib : Lib := ⟨fun _ i w h => ⟨⟨0, 0, w, h⟩, i.px⟩, fun _ i w h => ⟨⟨0, 0, w, h⟩, i.px⟩, fun _ i => i, fun _ i => i⟩

/-- A picture of three columns and two rows whose corner is not at 0, turned to the left and mirrored: the right column comes to the top, backwards. -/
example : (let v := view (tr someLib 0 0 0 0 { rotate := 450, flipH := true } ⟨⟨5, 7, 8, 9⟩, fun x y => ⟨UInt8.ofNat (10 * (x - 5) + (y - 7)).toNat, 0, 0, 255⟩⟩)
    (v.w, v.h, (v.px 0 0).r, (v.px 1 0).r, (v.px 0 2).r)) = (2, 3, 21, 20, 1) := by decide +kernel

example : (let v := view (tr someLib 0 0 0 0 { gray := true, invert := true } ⟨⟨0, 0, 1, 1⟩, fun _ _ => ⟨255, 128, 0, 77⟩⟩)
    (v.px 0 0)) = ⟨104, 104, 104, 77⟩ := by decide +kernel

/-! ## C175: what is not resized keeps its pixels -/

theorem size_same (lib : Lib) (filter mode width height : Int) (img : I) (hw : 1 ≤ img.b.dx) (hh : 1 ≤ img.b.dy)
    (h : modeSize mode img.b.dx img.b.dy width height = (img.b.dx, img.b.dy)) : view (sizeStep lib filter mode width height img) = view img := by
  unfold modeSize at h
  unfold sizeStep
  split
  · rw [if_pos ‹_›] at h
    generalize praseMode mode img.b.dx img.b.dy width height = p at *
    obtain ⟨nw, nh, t⟩ := p
    cases t
    · simp only at h ⊢
      unfold resize
      have z : ¬ (nw < 0 ∨ nh < 0) ∧ ¬ (nw = 0 ∧ nh = 0) := by
        unfold resizeSize at h
        constructor
        · intro hc
          rw [if_pos hc] at h
          have := congrArg Prod.fst h
          simp only at this
          omega
        · intro hc
          rw [if_neg (by omega), if_pos hc] at h
          have := congrArg Prod.fst h
          simp only at this
          omega
      rw [if_neg z.1, if_neg z.2, if_neg (by omega), if_pos h]
      exact view_clone img
    · simp only at h ⊢
      unfold fill
      have z : ¬ (nw ≤ 0 ∨ nh ≤ 0) ∧ img.b.dx = nw ∧ img.b.dy = nh := by
        unfold fillSize at h
        by_cases hc : nw ≤ 0 ∨ nh ≤ 0
        · rw [if_pos hc] at h
          have := congrArg Prod.fst h
          simp only at this
          omega
        · rw [if_neg hc, if_neg (by omega)] at h
          exact ⟨hc, (congrArg Prod.fst h).symm, (congrArg Prod.snd h).symm⟩
      rw [if_neg z.1, if_neg (by omega), if_pos z.2]
      exact view_clone img
  · rfl

/-- If the size that `mode`, `width` and `height` lead to is the size of the picture, nothing is resampled: the picture stays as it is. -/
theorem C175_same_size (lib : Lib) (filter mode width height : Int) (img : I) (hw : 1 ≤ img.b.dx) (hh : 1 ≤ img.b.dy)
    (h : modeSize mode img.b.dx img.b.dy width height = (img.b.dx, img.b.dy)) :
    (view (tr lib filter mode width height {} img)).Same (view img) := by
  have : tr lib filter mode width height {} img = sizeStep lib filter mode width height img := by
    unfold tr
    simp [cropStep, scaleStep]
  rw [this, size_same lib filter mode width height img hw hh h]
  exact ⟨rfl, rfl, fun _ _ _ _ _ _ => rfl⟩

/-- In particular a picture smaller than the box asked for, both ways round, in every mode and with every filter. -/
theorem C175_small (lib : Lib) (filter mode width height : Int) (img : I) (hw : 1 ≤ img.b.dx) (hh : 1 ≤ img.b.dy)
    (h1 : max img.b.dx img.b.dy < width) (h2 : max img.b.dx img.b.dy < height) :
    (view (tr lib filter mode width height {} img)).Same (view img) := by
  apply C175_same_size lib filter mode width height img hw hh
  have e : praseMode mode img.b.dx img.b.dy width height = (img.b.dx, img.b.dy, .scale) := by
    unfold praseMode
    have : img.b.dx < (newSide4mode img.b.dx img.b.dy width height).1 ∧ img.b.dy < (newSide4mode img.b.dx img.b.dy width height).2 := by
      unfold newSide4mode
      split <;> simp only <;> omega
    simp only
    rw [if_pos this]
  unfold modeSize
  rw [if_pos (by omega), e]
  simp only
  unfold resizeSize
  rw [if_neg (by omega), if_neg (by omega), if_neg (by omega)]
  split
  · rename_i hc; omega
  · split
    · rename_i hc; omega
    · rfl

/-- The filter is the one of the number given; all numbers that belong to none mean MitchellNetravali (4). Numbers that belong to one are told apart: with a suitable library the results
differ. -/
theorem C175_filter :
    (∀ (lib : Lib) (filter mode width height : Int) (o : Options) (img : I), filter < 0 ∨ 14 < filter →
      tr lib filter mode width height o img = tr lib 4 mode width height o img) ∧
    ∃ (lib : Lib) (img : I), ∀ f g : Int, 0 ≤ f → f ≤ 14 → 0 ≤ g → g ≤ 14 → (view (tr lib f 0 1 1 {} img)).w = (view (tr lib g 0 1 1 {} img)).w → f = g := by
  refine ⟨fun lib filter mode width height o img h => ?_, ?_⟩
  · have : selectFilter filter = selectFilter 4 := by unfold selectFilter; rw [if_neg (by omega)]; rfl
    unfold tr sizeStep
    rw [this]
  · refine ⟨⟨fun f i _ _ => ⟨⟨0, 0, f, 1⟩, i.px⟩, fun _ i _ _ => i, fun _ i => i, fun _ i => i⟩, ⟨⟨0, 0, 2, 2⟩, fun _ _ => ⟨0, 0, 0, 0⟩⟩, ?_⟩
    have key : ∀ f : Int, 0 ≤ f → f ≤ 14 →
        (view (tr ⟨fun f i _ _ => ⟨⟨0, 0, f, 1⟩, i.px⟩, fun _ i _ _ => i, fun _ i => i, fun _ i => i⟩ f 0 1 1 {} ⟨⟨0, 0, 2, 2⟩, fun _ _ => ⟨0, 0, 0, 0⟩⟩)).w = f := by
      intro f h1 h2
      have e : praseMode 0 2 2 1 1 = (1, 1, .scale) := by decide +kernel
      have e3 : resizeSize 2 2 1 1 = (1, 1) := by decide +kernel
      have e2 : selectFilter f = f := by unfold selectFilter; rw [if_pos ⟨h1, h2⟩]
      simp [tr, cropStep, scaleStep, sizeStep, Rect.dx, Rect.dy, e, e2, e3, resize, view]
    intro f g f1 f2 g1 g2 h
    rw [key f f1 f2, key g g1 g2] at h
    exact h

/-- 40 x 30 pixels and a request for 64 x 64: the pixel in the corner is still there. -/
example : (let v := view (tr someLib 9 1 64 64 {} ⟨⟨5, 7, 45, 37⟩, fun x y => ⟨UInt8.ofNat (x + y).toNat, 0, 0, 255⟩⟩)
    (v.w, v.h, (v.px 0 0).r, (v.px 39 29).r)) = (40, 30, 12, 80) := by decide +kernel

/-! ## C176: the whole of `Encode` never enlarges -/

/-- Without `ScaleUpper` and `ScaleLower`, for turns by multiples of 90 degrees and for the modes that do not fill (or with both sides given, C70),
the picture has at most as many columns and rows as the source, exchanged if it is turned by an odd number of quarters. Cropping may ask for anything. -/
theorem C176_never_enlarges {lib : Lib} (hl : Sized lib) (filter mode width height : Int) (o : Options) (img : I) {k : Int}
    (hw : 0 ≤ img.b.dx) (hw' : img.b.dx ≤ 2 ^ 31) (hh : 0 ≤ img.b.dy) (hh' : img.b.dy ≤ 2 ^ 31)
    (hu : o.scaleUpper.length < 2) (hd : o.scaleLower.length < 2)
    (hm : (mode ≠ 1 ∧ mode ≠ 5) ∨ (width ≠ 0 ∧ height ≠ 0))
    (hk : o.rotate = 90 * k) (h1 : -9000000000000000 ≤ o.rotate) (h2 : o.rotate ≤ 9000000000000000) :
    if k % 2 = 0 then (view (tr lib filter mode width height o img)).w ≤ (view img).w ∧ (view (tr lib filter mode width height o img)).h ≤ (view img).h
    else (view (tr lib filter mode width height o img)).w ≤ (view img).h ∧ (view (tr lib filter mode width height o img)).h ≤ (view img).w := by
  have c1 := cropStep_le o.cropAnchor img hw hh (f := cropImageByAnchor) fun i a b c d ha hb => anchor_le i a b c d ha hb
  have c2 := cropStep_le o.cropSide (cropStep cropImageByAnchor o.cropAnchor img) (by omega) (by omega) (f := cropImageBySide)
    fun i a b c d ha hb => side_le' i a b c d ha hb
  have st : start lib filter mode width height o img =
      sizeStep lib filter mode width height (cropStep cropImageBySide o.cropSide (cropStep cropImageByAnchor o.cropAnchor img)) := by
    unfold start
    simp only
    rw [scaleStep_short lib _ hu, scaleStep_short lib _ hd]
  generalize cropStep cropImageBySide o.cropSide (cropStep cropImageByAnchor o.cropAnchor img) = i at *
  have s1 : (sizeStep lib filter mode width height i).b.dx ≤ img.b.dx ∧ (sizeStep lib filter mode width height i).b.dy ≤ img.b.dy := by
    by_cases hi : 1 ≤ i.b.dx ∧ 1 ≤ i.b.dy
    · have e := sizeStep_size hl filter mode width height i hi.1 hi.2
      have := Gofer.Props.Image.C70_never_enlarges_partial hi.1 (by omega) hi.2 (by omega) mode width height hm
      rw [← e] at this
      exact ⟨le_trans this.1 (by omega), le_trans this.2 (by omega)⟩
    · have := sizeStep_empty lib filter mode width height i (by omega)
      omega
  rw [tr_eq, st]
  generalize sizeStep lib filter mode width height i = j at *
  obtain ⟨f1, f2⟩ := finish_size hl o j hk (by omega) (by omega)
  rw [f1, f2]
  split <;> simp only [view] <;> omega

/-- 1920 x 1080, cropped to 1000 x 1080, resized for 500 x 500, turned to the left, made grey and blurred. -/
example : (let v := view (tr someLib 9 0 500 500 { cropAnchor := [1000, 5000, 0, 0], rotate := -270, gray := true, blur := 1 }
      ⟨⟨0, 0, 1920, 1080⟩, fun _ _ => ⟨1, 2, 3, 255⟩⟩)
    (v.w, v.h)) = (540, 500) := by decide +kernel

example : Sized someLib := ⟨fun _ _ _ _ _ _ => ⟨Int.sub_zero _, Int.sub_zero _⟩, fun _ _ _ _ _ _ => ⟨Int.sub_zero _, Int.sub_zero _⟩, fun _ _ => ⟨rfl, rfl⟩⟩

/-! ## C177: the options in `Encode` -/

theorem pic_view (img : I) : Gofer.Props.Image.pic img = (view img).px := rfl

/-- `CropAnchor` is width, height, x, y, and selects what of this part of the source lies in the source. -/
theorem C177_cropAnchor (lib : Lib) (filter mode : Int) (img : I) (hx0 : img.b.x0 = 0) (hy0 : img.b.y0 = 0) (hdx : 0 ≤ img.b.dx) (hdx' : img.b.dx < 2 ^ 62)
    (hdy : 0 ≤ img.b.dy) (hdy' : img.b.dy < 2 ^ 62) {width height x y : Int} (hw : 1 ≤ width) (hw' : width < 2 ^ 62) (hh : 1 ≤ height)
    (hh' : height < 2 ^ 62) (hx : -2 ^ 62 < x) (hx' : x < 2 ^ 62) (hy : -2 ^ 62 < y) (hy' : y < 2 ^ 62) {cx cw cy ch : Int}
    (e1 : (cx, cw) = cut x width (view img).w) (e2 : (cy, ch) = cut y height (view img).h) (r : Pic Colour)
    (hr : r = view (tr lib filter mode 0 0 { cropAnchor := [width, height, x, y] } img)) :
    if 0 < cw ∧ 0 < ch then shows (view img).px cx cy cw ch r.w r.h r.px else r.w = 0 ∧ r.h = 0 := by
  have t : tr lib filter mode 0 0 { cropAnchor := [width, height, x, y] } img = cropImageByAnchor img width height x y := by
    simp [tr, cropStep, scaleStep, sizeStep]
  rw [t] at hr
  subst hr
  exact (Gofer.Props.Image.C69_crop_partial img hx0 hy0 hdx hdx' hdy hdy' hw hw' hh hh' hx hx' hy hy').2.1 _ cx cw cy ch rfl e1 e2

/-- `CropSide` is width, height, x, y, and moves the part into the source. -/
theorem C177_cropSide (lib : Lib) (filter mode : Int) (img : I) (hx0 : img.b.x0 = 0) (hy0 : img.b.y0 = 0) (hdx : 0 < img.b.dx) (hdx' : img.b.dx < 2 ^ 62)
    (hdy : 0 < img.b.dy) (hdy' : img.b.dy < 2 ^ 62) {width height x y : Int} (hw : 1 ≤ width) (hw' : width < 2 ^ 62) (hh : 1 ≤ height)
    (hh' : height < 2 ^ 62) (hx : -2 ^ 62 < x) (hx' : x < 2 ^ 62) (hy : -2 ^ 62 < y) (hy' : y < 2 ^ 62) (r : Pic Colour)
    (hr : r = view (tr lib filter mode 0 0 { cropSide := [width, height, x, y] } img)) :
    shows (view img).px (max 0 (min x ((view img).w - width))) (max 0 (min y ((view img).h - height))) (min width (view img).w) (min height (view img).h)
      r.w r.h r.px := by
  have t : tr lib filter mode 0 0 { cropSide := [width, height, x, y] } img = cropImageBySide img width height x y := by
    simp [tr, cropStep, scaleStep, sizeStep]
  rw [t] at hr
  subst hr
  exact (Gofer.Props.Image.C69_crop_partial img hx0 hy0 hdx.le hdx' hdy.le hdy' hw hw' hh hh' hx hx' hy hy').2.2 _ rfl hdx hdy

/-- `ScaleLower` of two numbers makes the picture fit into the box and `ScaleUpper` cover it (up to one row), whatever the filter. -/
theorem C177_scale {lib : Lib} (hl : Sized lib) (filter mode : Int) (img : I) (hw : 1 ≤ img.b.dx) (hw' : img.b.dx ≤ 2 ^ 25) (hh : 1 ≤ img.b.dy)
    (hh' : img.b.dy ≤ 2 ^ 25) {a b : Int} (h1 : 1 ≤ a) (h1' : a ≤ 2 ^ 25) (h2 : 1 ≤ b) (h2' : b ≤ 2 ^ 25) :
    ((view (tr lib filter mode 0 0 { scaleLower := [a, b] } img)).w ≤ a ∧ (view (tr lib filter mode 0 0 { scaleLower := [a, b] } img)).h ≤ b) ∧
      (a ≤ (view (tr lib filter mode 0 0 { scaleUpper := [a, b] } img)).w ∧ b - 1 ≤ (view (tr lib filter mode 0 0 { scaleUpper := [a, b] } img)).h) := by
  have t1 : tr lib filter mode 0 0 { scaleLower := [a, b] } img = scaleRatio lib img a b 0 true := by
    simp [tr, cropStep, scaleStep, sizeStep]
  have t2 : tr lib filter mode 0 0 { scaleUpper := [a, b] } img = scaleRatio lib img a b 0 false := by
    simp [tr, cropStep, scaleStep, sizeStep]
  have z : ∀ lower, ((scaleRatio lib img a b 0 lower).b.dx, (scaleRatio lib img a b 0 lower).b.dy) = scaleSize img.b.dx img.b.dy a b 0 lower :=
    fun lower => resize_size hl 9 img _ _
  obtain ⟨l, u, _⟩ := Gofer.Props.Image.C107_box_partial hw hw' hh hh' h1 h1' h2 h2'
  rw [t1, t2]
  rw [← z true] at l
  rw [← z false] at u
  exact ⟨l, u⟩

/-- A third number of `ScaleLower` and `ScaleUpper` bounds the number of pixels, except for lines of one or two pixels. -/
theorem C177_pixels {lib : Lib} (hl : Sized lib) (filter mode : Int) (img : I) (hw : 1 ≤ img.b.dx) (hw' : img.b.dx ≤ 2 ^ 16) (hh : 1 ≤ img.b.dy)
    (hh' : img.b.dy ≤ 2 ^ 16) {a b n : Int} (h1 : 1 ≤ a) (h1' : a ≤ 2 ^ 16) (h2 : 1 ≤ b) (h2' : b ≤ 2 ^ 16) (hn : 1 ≤ n) (o : Options)
    (ho : o = { scaleLower := [a, b, n] } ∨ o = { scaleUpper := [a, b, n] }) (r : Pic Colour) (hr : r = view (tr lib filter mode 0 0 o img)) :
    r.w * r.h ≤ n ∨ r.w ≤ 2 ∨ r.h ≤ 2 := by
  have t : ∃ lower, tr lib filter mode 0 0 o img = scaleRatio lib img a b n lower := by
    rcases ho with rfl | rfl
    · exact ⟨true, by simp [tr, cropStep, scaleStep, sizeStep]⟩
    · exact ⟨false, by simp [tr, cropStep, scaleStep, sizeStep]⟩
  obtain ⟨lower, t⟩ := t
  have z : ((scaleRatio lib img a b n lower).b.dx, (scaleRatio lib img a b n lower).b.dy) = scaleSize img.b.dx img.b.dy a b n lower :=
    resize_size hl 9 img _ _
  have := Gofer.Props.Image.C108_limit_partial lower hw hw' hh hh' h1 h1' h2 h2' hn
  rw [← z] at this
  rw [hr, t]
  exact this

/-- With a size and without options the picture has the size `modeSize` of C70 and C104 to C106. -/
theorem C177_size {lib : Lib} (hl : Sized lib) (filter mode width height : Int) (img : I) (hw : 1 ≤ img.b.dx) (hh : 1 ≤ img.b.dy) (r : Pic Colour)
    (hr : r = view (tr lib filter mode width height {} img)) : (r.w, r.h) = modeSize mode (view img).w (view img).h width height := by
  have t : tr lib filter mode width height {} img = sizeStep lib filter mode width height img := by simp [tr, cropStep, scaleStep]
  rw [hr, t]
  exact sizeStep_size hl filter mode width height img hw hh

/-- The lower right 3 x 2 pixels of 10 x 10, and more than there is. -/
example : [{ cropAnchor := [3, 2, 7, 8] }, { cropAnchor := [300, 200, 7, 8] }, { cropSide := [3, 2, 70, 80] }].map (fun o =>
    let r := view (tr someLib 9 0 0 0 o ⟨⟨0, 0, 10, 10⟩, fun x y => ⟨UInt8.ofNat (10 * x + y).toNat, 0, 0, 255⟩⟩)
    (r.w, r.h, (r.px 0 0).r)) = [(3, 2, 78), (3, 2, 78), (3, 2, 78)] := by decide +kernel

example : (let f := fun o => view (tr someLib 9 0 0 0 o ⟨⟨0, 0, 1920, 1080⟩, fun _ _ => ⟨0, 0, 0, 255⟩⟩)
    ((f { scaleLower := [640, 480] }).w, (f { scaleLower := [640, 480] }).h, (f { scaleUpper := [640, 480] }).w, (f { scaleUpper := [640, 480] }).h)) =
      (640, 360, 853, 480) := by decide +kernel

example : (let f := fun o => view (tr someLib 9 0 0 0 o ⟨⟨0, 0, 1920, 1080⟩, fun _ _ => ⟨0, 0, 0, 255⟩⟩)
    ((f { scaleUpper := [640, 480, 10000] }).w, (f { scaleUpper := [640, 480, 10000] }).h)) = (133, 75) := by decide +kernel

end Gofer.Props.ImageTr
