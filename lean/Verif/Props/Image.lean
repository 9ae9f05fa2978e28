import Verif.Spec.Image
import Verif.Model.Image
import Verif.Proof.ImageType

/-!
# Properties of `image`

`modeSize mode w h width height` is the size `Encode` and `Resize` give to an image `w × h`; `scaleSize` that of `ScaleUpper` and
`ScaleLower`; both after the rules of `imaging.Resize` and `imaging.Fill`. Sides up to 2³¹ or 2²⁵ pixels are far above what the
libraries can allocate.
-/
namespace Gofer.Props.Image
open Gofer Gofer.Image Gofer.Spec.Image

/-! ## C69: cropping -/

/-- Pixels of an image counted from its own corner. -/
def pic {α : Type} (img : Img α) (i j : Int) : α := img.px (img.b.x0 + i) (img.b.y0 + j)

/-- The claim: `CropImage` succeeds exactly when the rectangle lies in the image, and gives exactly that part. -/
def C69_claim : Prop :=
  ∀ (img : Img (Int × Int)) (width height x y : Int), img.b.x0 ≤ img.b.x1 → img.b.y0 ≤ img.b.y1 →
    ((cropImage img width height x y).isSome = true ↔ 0 ≤ x ∧ 0 ≤ y ∧ 0 ≤ width ∧ 0 ≤ height ∧ x + width ≤ img.b.dx ∧ y + height ≤ img.b.dy) ∧
    ∀ r, cropImage img width height x y = some r → shows (pic img) x y width height r.b.dx r.b.dy (pic r)

/-- A negative width is accepted: the part to the left of `x` is returned. -/
theorem C69_negative_width : ∃ (img : Img (Int × Int)) (r : Img (Int × Int)), img.b = ⟨0, 0, 10, 10⟩ ∧
    cropImage img (-5) 4 7 0 = some r ∧ r.b = ⟨0, 0, 5, 4⟩ ∧ pic r 0 0 = pic img 2 0 :=
  ⟨⟨⟨0, 0, 10, 10⟩, fun i j => (i, j)⟩, _, rfl, rfl, by decide +kernel, by decide +kernel⟩

/-- A huge width overflows and is accepted. -/
theorem C69_overflow : ∃ (img : Img (Int × Int)) (r : Img (Int × Int)), img.b = ⟨0, 0, 10, 10⟩ ∧
    cropImage img (2 ^ 63 - 1) 4 5 0 = some r ∧ r.b = ⟨0, 0, 5, 4⟩ ∧ pic r 0 0 = pic img 0 0 :=
  ⟨⟨⟨0, 0, 10, 10⟩, fun i j => (i, j)⟩, _, rfl, rfl, by decide +kernel, by decide +kernel⟩

/-- An image whose bounds do not start at 0, for example a part made with `SubImage` or a frame of a GIF, is cut in the wrong place: here
the lower right quarter was asked for, and nothing is left. -/
theorem C69_origin : ∃ (img : Img (Int × Int)) (r : Img (Int × Int)), img.b = ⟨100, 100, 110, 110⟩ ∧
    cropImage img 5 5 5 5 = some r ∧ r.b = ⟨0, 0, 0, 0⟩ :=
  ⟨⟨⟨100, 100, 110, 110⟩, fun i j => (i, j)⟩, _, rfl, rfl, by decide +kernel⟩

theorem C69_claim_false : ¬ C69_claim := by
  intro h
  obtain ⟨img, r, hb, hr, hrb⟩ := C69_origin
  have := ((h img 5 5 5 5 (by rw [hb]; decide) (by rw [hb]; decide)).2 r hr).1
  rw [hrb] at this
  exact absurd this (by decide)

/-- For images that start at 0 and numbers that do not overflow: cropping succeeds exactly when the rectangle lies inside and then returns
exactly it; cropping by anchor returns what of the rectangle lies in the image; cropping by side moves the rectangle into the image, or takes
the whole side if it does not fit. -/
theorem C69_crop_partial {α : Type} (img : Img α) (hx0 : img.b.x0 = 0) (hy0 : img.b.y0 = 0) (hdx : 0 ≤ img.b.dx) (hdx' : img.b.dx < 2 ^ 62)
    (hdy : 0 ≤ img.b.dy) (hdy' : img.b.dy < 2 ^ 62) {width height x y : Int} (hw : 1 ≤ width) (hw' : width < 2 ^ 62) (hh : 1 ≤ height)
    (hh' : height < 2 ^ 62) (hx : -2 ^ 62 < x) (hx' : x < 2 ^ 62) (hy : -2 ^ 62 < y) (hy' : y < 2 ^ 62) :
    (((cropImage img width height x y).isSome = true ↔ 0 ≤ x ∧ 0 ≤ y ∧ x + width ≤ img.b.dx ∧ y + height ≤ img.b.dy) ∧
      ∀ r, cropImage img width height x y = some r → shows (pic img) x y width height r.b.dx r.b.dy (pic r)) ∧
    (∀ r cx cw cy ch, r = cropImageByAnchor img width height x y → (cx, cw) = cut x width img.b.dx → (cy, ch) = cut y height img.b.dy →
      if 0 < cw ∧ 0 < ch then shows (pic img) cx cy cw ch r.b.dx r.b.dy (pic r) else r.b.dx = 0 ∧ r.b.dy = 0) ∧
    (∀ r, r = cropImageBySide img width height x y →
      0 < img.b.dx → 0 < img.b.dy →
        shows (pic img) (max 0 (min x (img.b.dx - width))) (max 0 (min y (img.b.dy - height))) (min width img.b.dx) (min height img.b.dy) r.b.dx r.b.dy (pic r)) := by
  have w1 : wrap (x + width) = x + width := wrap_id (by omega) (by omega)
  have w2 : wrap (y + height) = y + height := wrap_id (by omega) (by omega)
  refine ⟨⟨?_, ?_⟩, ?_, ?_⟩
  · unfold cropImage
    rw [w1, w2]
    split <;> simp <;> omega
  · intro r hr
    unfold cropImage at hr
    rw [w1, w2] at hr
    split at hr
    · cases hr
    · cases hr
      obtain ⟨hb, hp⟩ := (crop_at img hx0 hy0 (x := x) (y := y) (x1 := x + width) (y1 := y + height) (by omega) (by omega)).1 (by omega)
      refine ⟨?_, ?_, fun i j _ _ _ _ => ?_⟩
      · rw [hb]; simp only [Rect.dx] at *; omega
      · rw [hb]; simp only [Rect.dy] at *; omega
      · unfold pic
        rw [hp, hb, hx0, hy0]
        congr 1 <;> simp only <;> omega
  · intro r cx cw cy ch hr hcx hcy
    cases hcx
    cases hcy
    have key : ∀ {x1 y1 : Int}, x ≤ x1 → y ≤ y1 → min x1 img.b.dx = min (x + width) img.b.dx → min y1 img.b.dy = min (y + height) img.b.dy →
        if 0 < min (x + width) img.b.dx - max x 0 ∧ 0 < min (y + height) img.b.dy - max y 0 then
          shows (pic img) (max x 0) (max y 0) (min (x + width) img.b.dx - max x 0) (min (y + height) img.b.dy - max y 0) (imagingCrop img (mkRect x y x1 y1)).b.dx (imagingCrop img (mkRect x y x1 y1)).b.dy (pic (imagingCrop img (mkRect x y x1 y1)))
        else (imagingCrop img (mkRect x y x1 y1)).b.dx = 0 ∧ (imagingCrop img (mkRect x y x1 y1)).b.dy = 0 := by
      intro x1 y1 a1 a2 e1 e2
      obtain ⟨c1, c2⟩ := crop_at img hx0 hy0 a1 a2
      rw [e1, e2] at c1 c2
      split
      · obtain ⟨hb, hp⟩ := c1 (by omega)
        refine ⟨?_, ?_, fun i j _ _ _ _ => ?_⟩
        · rw [hb]; simp only [Rect.dx]; omega
        · rw [hb]; simp only [Rect.dy]; omega
        · unfold pic
          rw [hp, hb, hx0, hy0]
          congr 1 <;> simp only <;> omega
      · rw [c2 (by omega)]
        simp [Rect.dx, Rect.dy]
    have none : ∀ {x1 y1 : Int}, (x1 < x ∨ y1 < y) → (img.b.dx ≤ x ∨ img.b.dy ≤ y) → (x1 < x → img.b.dx ≤ x1) → (y1 < y → img.b.dy ≤ y1) →
        (imagingCrop img (mkRect x y x1 y1)).b = ⟨0, 0, 0, 0⟩ := by
      intro x1 y1 h1 h2 h3 h4
      have e1 : img.b.x1 = img.b.dx := by unfold Rect.dx; omega
      have e2 : img.b.y1 = img.b.dy := by unfold Rect.dy; omega
      unfold imagingCrop mkRect Rect.inter Rect.empty
      simp only [hx0, hy0, e1, e2]
      by_cases a : x1 < x <;> by_cases b : y1 < y <;> simp only [a, b, if_true, if_false]
      · have : (decide (min x img.b.dx ≤ max x1 0) || decide (min y img.b.dy ≤ max y1 0)) = true := by simp; omega
        rw [this]; simp
      · have : (decide (min x img.b.dx ≤ max x1 0) || decide (min y1 img.b.dy ≤ max y 0)) = true := by simp; omega
        rw [this]; simp
      · have : (decide (min x1 img.b.dx ≤ max x 0) || decide (min y img.b.dy ≤ max y1 0)) = true := by simp; omega
        rw [this]; simp
      · omega
    show if 0 < min (x + width) img.b.dx - max x 0 ∧ 0 < min (y + height) img.b.dy - max y 0 then
      shows (pic img) (max x 0) (max y 0) (min (x + width) img.b.dx - max x 0) (min (y + height) img.b.dy - max y 0) r.b.dx r.b.dy (pic r) else r.b.dx = 0 ∧ r.b.dy = 0
    unfold cropImageByAnchor at hr
    rw [w1, w2] at hr
    split at hr
    · rw [hr]
      exact key (by omega) (by omega) rfl rfl
    · have d1 : wrap (img.b.dx - x) = img.b.dx - x := wrap_id (by omega) (by omega)
      have d2 : wrap (img.b.dy - y) = img.b.dy - y := wrap_id (by omega) (by omega)
      simp only [d1, d2] at hr
      generalize hnw : (if img.b.dx < x + width then img.b.dx - x else width) = nw at hr
      generalize hnh : (if img.b.dy < y + height then img.b.dy - y else height) = nh at hr
      have e1 : wrap (x + nw) = min (x + width) img.b.dx := by rw [wrap_id] <;> split at hnw <;> omega
      have e2 : wrap (y + nh) = min (y + height) img.b.dy := by rw [wrap_id] <;> split at hnh <;> omega
      rw [e1, e2] at hr
      by_cases hc : x ≤ min (x + width) img.b.dx ∧ y ≤ min (y + height) img.b.dy
      · rw [hr]
        exact key hc.1 hc.2 (by omega) (by omega)
      · rw [if_neg (by omega), hr, none (by omega) (by omega) (by omega) (by omega)]
        simp [Rect.dx, Rect.dy]
  · intro r hr px py
    unfold cropImageBySide at hr
    have d1 : wrap (img.b.dx - width) = img.b.dx - width := wrap_id (by omega) (by omega)
    have d2 : wrap (img.b.dy - height) = img.b.dy - height := wrap_id (by omega) (by omega)
    simp only [d1, d2] at hr
    generalize hcx : clamp x 0 (img.b.dx - width) = cx at hr
    generalize hcy : clamp y 0 (img.b.dy - height) = cy at hr
    unfold clamp at hcx hcy
    have bx : (width ≤ img.b.dx → cx = max 0 (min x (img.b.dx - width))) ∧ (img.b.dx < width → cx = 0 ∨ cx = img.b.dx - width) := by
      split at hcx
      · omega
      · split at hcx <;> omega
    have by' : (height ≤ img.b.dy → cy = max 0 (min y (img.b.dy - height))) ∧ (img.b.dy < height → cy = 0 ∨ cy = img.b.dy - height) := by
      split at hcy
      · omega
      · split at hcy <;> omega
    have e1 : wrap (cx + width) = cx + width := wrap_id (by omega) (by omega)
    have e2 : wrap (cy + height) = cy + height := wrap_id (by omega) (by omega)
    rw [e1, e2] at hr
    obtain ⟨hb, hp⟩ := (crop_at img hx0 hy0 (x := cx) (y := cy) (x1 := cx + width) (y1 := cy + height) (by omega) (by omega)).1 (by omega)
    rw [hr]
    refine ⟨?_, ?_, fun i j _ _ _ _ => ?_⟩
    · rw [hb]; simp only [Rect.dx] at *; omega
    · rw [hb]; simp only [Rect.dy] at *; omega
    · unfold pic
      rw [hp, hb, hx0, hy0]
      congr 1 <;> simp only <;> omega

/-- Non-vacuity: three crops of an image 10 × 8. -/
example : let img : Img (Int × Int) := ⟨⟨0, 0, 10, 8⟩, fun i j => (i, j)⟩
    ((cropImage img 4 3 6 5).map fun r => (r.b, pic r 0 0)) = some (⟨0, 0, 4, 3⟩, (6, 5)) ∧ (cropImage img 4 3 7 5).isNone ∧
      ((cropImageByAnchor img 4 3 8 (-1)).b, pic (cropImageByAnchor img 4 3 8 (-1)) 0 0) = (⟨0, 0, 2, 2⟩, (8, 0)) ∧
      ((cropImageBySide img 4 30 8 3).b, pic (cropImageBySide img 4 30 8 3) 0 0) = (⟨0, 0, 4, 8⟩, (6, 0)) := by decide +kernel

/-! ## C70: resizing never enlarges -/

def C70_claim : Prop :=
  ∀ mode w h width height : Int, 1 ≤ w → w ≤ 2 ^ 31 → 1 ≤ h → h ≤ 2 ^ 31 → (modeSize mode w h width height).1 ≤ w ∧ (modeSize mode w h width height).2 ≤ h

/-- Mode 1 with only a height: the width is taken to be the same, and the image 100 pixels wide is blown up to 500. -/
theorem C70_claim_false : ¬ C70_claim := by
  intro h
  have := h 1 100 1000 0 500 (by decide) (by decide) (by decide) (by decide)
  revert this
  decide +kernel

/-- All other modes, with whatever requests, and modes 1 and 5 when both sides are given. -/
theorem C70_never_enlarges_partial {w h : Int} (hw : 1 ≤ w) (hw' : w ≤ 2 ^ 31) (hh : 1 ≤ h) (hh' : h ≤ 2 ^ 31) (mode width height : Int)
    (hm : (mode ≠ 1 ∧ mode ≠ 5) ∨ (width ≠ 0 ∧ height ≠ 0)) :
    (modeSize mode w h width height).1 ≤ w ∧ (modeSize mode w h width height).2 ≤ h := by
  by_cases hc : mode ≠ 1 ∧ mode ≠ 5
  · exact mode_le hw hw' hh hh' width height hc
  · obtain ⟨h1, h2⟩ := hm.resolve_left hc
    exact mode_thumb (fun p => p.1 ≤ w ∧ p.2 ≤ h) hw hh ⟨le_refl _, le_refl _⟩ (thumb_le hw hh h1 h2) (thumb_le hw hh h2 h1) (by omega)

example : (modeSize 0 1920 1080 640 0, modeSize 1 1920 1080 300 300, modeSize 2 1920 1080 5000 5000, modeSize 4 1080 1920 640 480) =
    ((640, 360), (300, 300), (1920, 1080), (480, 853)) := by decide +kernel

/-! ## C71: types -/

/-- The type found is the one whose magic number the data begins with (there is at most one), for data of at least 8 bytes. -/
theorem C71_type (d : List UInt8) :
    (∀ t, t ≠ "" → (imageType d = t ↔ 8 ≤ d.length ∧ ∃ m, (t, m) ∈ magics ∧ m <+: d)) ∧
    (imageType d = "" ↔ d.length < 8 ∨ ∀ t m, (t, m) ∈ magics → ¬ m <+: d) ∧
    (8 ≤ d.length → ∀ e, imageType (d.take 8 ++ e) = imageType d) := by
  have name : ∀ t m, (t, m) ∈ magics → t ≠ "" ∧ m.length ≤ 8 := by
    intro t m h
    have : ∀ p ∈ magics, p.1 ≠ "" ∧ p.2.length ≤ 8 := by decide +kernel
    exact this _ h
  refine ⟨fun t ht => ⟨fun h => ?_, fun ⟨h8, m, hm, hp⟩ => type_of_magic h8 hm hp⟩, ⟨fun h => ?_, fun h => ?_⟩, fun h8 e => ?_⟩
  · by_cases h8 : 8 ≤ d.length
    · rcases type_sound h8 with h' | ⟨m, hm, hp⟩
      · exact absurd (h.symm.trans h') ht
      · exact ⟨h8, m, h ▸ hm, hp⟩
    · exact absurd (h.symm.trans (type_short (by omega))) ht
  · by_cases h8 : 8 ≤ d.length
    · exact .inr (type_empty h8 h)
    · exact .inl (by omega)
  · by_cases h8 : 8 ≤ d.length
    · rcases type_sound h8 with h' | ⟨m, hm, hp⟩
      · exact h'
      · exact absurd hp (h.resolve_left (by omega) _ m hm)
    · exact type_short (by omega)
  · have hl : (d.take 8).length = 8 := by rw [List.length_take]; omega
    have hl' : 8 ≤ (d.take 8 ++ e).length := by rw [List.length_append]; omega
    have pre : ∀ m : List UInt8, m.length ≤ 8 → (m <+: d.take 8 ++ e ↔ m <+: d) := by
      intro m hm
      have h1 : m <+: d.take 8 ++ e ↔ m <+: d.take 8 :=
        ⟨fun h => List.prefix_of_prefix_length_le h (List.prefix_append _ _) (by omega), fun h => h.trans (List.prefix_append _ _)⟩
      have h2 : m <+: d ↔ m <+: d.take 8 :=
        ⟨fun h => List.prefix_of_prefix_length_le h (List.take_prefix _ _) (by omega), fun h => h.trans (List.take_prefix _ _)⟩
      rw [h1, h2]
    rcases type_sound h8 with h' | ⟨m, hm, hp⟩
    · rw [h']
      rcases type_sound hl' with h'' | ⟨m, hm, hp⟩
      · exact h''
      · exact absurd ((pre m (name _ _ hm).2).1 hp) (type_empty h8 h' _ m hm)
    · exact type_of_magic hl' hm ((pre m (name _ _ hm).2).2 hp)

example : imageType [0xFF, 0xD8, 0xFF, 0xE0, 0, 0, 0, 0] = "jpeg" ∧ imageType [0xFF, 0xD8, 0xFF] = "" ∧ imageType [1, 2, 3, 4, 5, 6, 7, 8] = "" := by
  decide +kernel

/-! ## C72: quality -/

theorem C72_quality (q : Int) : (10 < q → 1 ≤ normQuality q ∧ normQuality q ≤ 10) ∧ (q ≤ 10 → normQuality q = q) ∧
    ∀ d, qualityByBinary d q = quality (imageType d) q := by
  have h1 : 10 < q → 1 ≤ normQuality q ∧ normQuality q ≤ 10 := by
    intro h
    unfold normQuality
    rw [if_pos h, Int.tmod_eq_emod_of_nonneg (by omega)]
    omega
  have h2 : q ≤ 10 → normQuality q = q := fun h => by unfold normQuality; rw [if_neg (by omega)]
  refine ⟨h1, h2, fun d => ?_⟩
  have : normQuality (normQuality q) = normQuality q := by
    by_cases h : 10 < q
    · have := h1 h
      unfold normQuality at this ⊢
      rw [if_pos h] at this ⊢
      rw [if_neg (by omega)]
    · rw [h2 (by omega), h2 (by omega)]
  unfold qualityByBinary quality
  rw [this]

example : ([0, 7, 10, 11, 19, 85, 100].map normQuality, quality "jpeg" 8) = ([0, 7, 10, 2, 10, 6, 1], .jpeg 60) := by decide +kernel

/-- C72, for PNG: 1 to 3 is the best compression, 4 to 7 the default one, 8 to 10 the fastest; numbers above 10 are reduced first, and what is below 1 counts as the least. -/
theorem C72_png (q : Int) : quality "png" q =
    (if q ≤ 3 then .pngBestCompression else if q ≤ 7 then .pngDefault else if q ≤ 10 then .pngBestSpeed else quality "png" (q % 10 + 1)) := by
  have e : ∀ q, quality "png" q = if 8 ≤ normQuality q then .pngBestSpeed else if 4 ≤ normQuality q then .pngDefault else .pngBestCompression := fun q => by
    unfold quality; simp
  by_cases h : q ≤ 10
  · rw [e, (C72_quality q).2.1 h]
    split <;> split <;> (try split) <;> (try split) <;> first | rfl | omega
  · rw [if_neg (by omega), if_neg (by omega), if_neg h, e, e]
    have : normQuality q = normQuality (q % 10 + 1) := by
      rw [(C72_quality (q % 10 + 1)).2.1 (by omega)]
      unfold normQuality
      rw [if_pos (by omega), Int.tmod_eq_emod_of_nonneg (by omega)]
    rw [this]

example : ([1, 3, 4, 7, 8, 10, 85].map fun q => quality "png" q) =
    [.pngBestCompression, .pngBestCompression, .pngDefault, .pngDefault, .pngBestSpeed, .pngBestSpeed, .pngDefault] := by decide +kernel

/-! ## C104: mode 0 fits into the box -/

/-- The long side of the image within `long`, the short side within `short`. -/
def fitsEdges (w h a b long short : Int) : Prop := if h ≤ w then a ≤ long ∧ b ≤ short else b ≤ long ∧ a ≤ short

def C104_claim : Prop :=
  ∀ w h long short : Int, 1 ≤ w → w ≤ 2 ^ 25 → 1 ≤ h → h ≤ 2 ^ 25 → 1 ≤ long → 1 ≤ short →
    fitsEdges w h (modeSize 0 w h long short).1 (modeSize 0 w h long short).2 long short

/-- 400 × 100 into 200 × 90 gives 360 × 90. -/
theorem C104_claim_false : ¬ C104_claim := by
  intro h
  have := h 400 100 200 90 (by decide) (by decide) (by decide) (by decide) (by decide) (by decide)
  revert this
  unfold fitsEdges
  decide +kernel

/-- It does when the box is at least as long as the image is, or one side of the image is within its bound already. -/
theorem C104_box_partial {w h long short : Int} (hw : 1 ≤ w) (hw' : w ≤ 2 ^ 25) (hh : 1 ≤ h) (hh' : h ≤ 2 ^ 25) (hl : 1 ≤ long) (hs : 1 ≤ short)
    (hc : short * max w h ≤ long * min w h ∨ max w h ≤ long ∨ min w h ≤ short) :
    fitsEdges w h (modeSize 0 w h long short).1 (modeSize 0 w h long short).2 long short := by
  rw [modeSize_eq, if_pos (by omega)]
  unfold fitsEdges
  by_cases hle : h ≤ w
  · rw [if_pos hle]
    have hm1 : max w h = w := max_eq_left hle
    have hm2 : min w h = h := min_eq_right hle
    rw [hm1, hm2] at hc
    unfold praseMode newSide4mode
    simp only [if_pos hle]
    by_cases hb : w < long ∧ h < short
    · rw [if_pos hb]
      simp only [resize_self hw hh]
      omega
    · rw [if_neg hb]
      simp only [if_true]
      apply min_fits hw hw' hh hh' hl hs
      rcases hc with hc | hc | hc
      · refine .inl ⟨fun _ => hc, fun h' => ?_⟩
        calc long * h ≤ short * h := mul_le_mul_of_nonneg_right h' (by omega)
          _ ≤ short * w := mul_le_mul_of_nonneg_left hle (by omega)
      · exact .inr (.inl hc)
      · exact .inr (.inr hc)
  · rw [if_neg hle]
    have hm1 : max w h = h := max_eq_right (by omega)
    have hm2 : min w h = w := min_eq_left (by omega)
    rw [hm1, hm2] at hc
    unfold praseMode newSide4mode
    simp only [if_neg hle]
    by_cases hb : w < short ∧ h < long
    · rw [if_pos hb]
      simp only [resize_self hw hh]
      omega
    · rw [if_neg hb]
      simp only [if_true]
      rw [and_comm]
      apply min_fits hw hw' hh hh' hs hl
      rcases hc with hc | hc | hc
      · refine .inl ⟨fun h' => ?_, fun _ => hc⟩
        calc long * w ≤ short * w := mul_le_mul_of_nonneg_right (by omega) (by omega)
          _ ≤ short * h := mul_le_mul_of_nonneg_left (by omega) (by omega)
      · exact .inr (.inr hc)
      · exact .inr (.inl hc)

example : (modeSize 0 4000 3000 800 600, modeSize 0 3000 4000 800 600, modeSize 0 4000 3000 800 500) = ((800, 600), (600, 800), (666, 500)) := by
  decide +kernel

/-! ## C105: the ratio is kept -/

/-- In modes 0, 2, 3, 4 the result differs from the exact ratio by less than one pixel on one of the sides: |a·h − b·w| ≤ max(w, h). -/
theorem C105_ratio {w h width height : Int} (hw : 1 ≤ w) (hw' : w ≤ 2 ^ 25) (hh : 1 ≤ h) (hh' : h ≤ 2 ^ 25) (h1 : 0 ≤ width) (h1' : width ≤ 2 ^ 25)
    (h2 : 0 ≤ height) (h2' : height ≤ 2 ^ 25) {mode : Int} (hm : mode ≠ 1 ∧ mode ≠ 5) :
    |(modeSize mode w h width height).1 * h - (modeSize mode w h width height).2 * w| ≤ max w h := by
  refine mode_scale (fun p => |p.1 * h - p.2 * w| ≤ max w h) hw hh ?_ h1 h2 (by omega) (by omega) (by omega) (by omega) ?_ ?_ hm
  · show |w * h - h * w| ≤ max w h
    rw [mul_comm, sub_self, abs_zero]; omega
  · intro a b ha hb
    obtain ⟨⟨p1, p2⟩, _⟩ := min_pos hw (by omega) hh (by omega) ha hb
    obtain ⟨l1, l2⟩ := min_le hw (by omega) hh (by omega) a b
    exact resize_near hw hw' hh hh' p1 (by omega) p2 (by omega) (min_near hw hw' hh hh' ha hb)
  · intro a b ha hb
    obtain ⟨⟨p1, p2⟩, _⟩ := max_pos hw (by omega) hh (by omega) ha hb
    obtain ⟨l1, l2⟩ := max_le hw (by omega) hh (by omega) a b
    exact resize_near hw hw' hh hh' p1 (by omega) p2 (by omega) (max_near hw hw' hh hh' ha hb)

/-- The bound is met in a thin image. -/
example : modeSize 0 1000 3 100 0 = (100, 1) ∧ |(100 : Int) * 3 - 1 * 1000| ≤ max 1000 3 := by decide +kernel

/-! ## C106: an exact fraction of the size -/

/-- Asking mode 0 for exactly the `k`th part of both sides gives exactly that. -/
def C106_claim : Prop := ∀ a b k : Int, 1 ≤ a → 1 ≤ b → 1 ≤ k → k * a ≤ 2 ^ 25 → k * b ≤ 2 ^ 25 → modeSize 0 (k * a) (k * b) (max a b) (min a b) = (a, b)

/-- Half of 234 × 54 comes out as 116 × 27: 27 · (234/54) is rounded to below 117 and then cut. -/
theorem C106_claim_false : ¬ C106_claim := by
  intro h
  have := h 117 27 2 (by decide) (by decide) (by decide) (by decide) (by decide)
  revert this
  decide +kernel

/-- It is at most one pixel short. -/
theorem C106_exact_partial {a b k : Int} (ha : 1 ≤ a) (hb : 1 ≤ b) (hk : 1 ≤ k) (ha' : k * a ≤ 2 ^ 25) (hb' : k * b ≤ 2 ^ 25) :
    (a - 1 ≤ (modeSize 0 (k * a) (k * b) (max a b) (min a b)).1 ∧ (modeSize 0 (k * a) (k * b) (max a b) (min a b)).1 ≤ a) ∧
      (b - 1 ≤ (modeSize 0 (k * a) (k * b) (max a b) (min a b)).2 ∧ (modeSize 0 (k * a) (k * b) (max a b) (min a b)).2 ≤ b) := by
  exact exact_size ha hb hk ha' hb'

example : modeSize 0 (3 * 640) (3 * 360) 640 360 = (640, 360) ∧ modeSize 0 (2 * 117) (2 * 27) 117 27 = (116, 27) := by decide +kernel

/-! ## C107: scaling into and over a box -/

/-- `ScaleLower` without a limit gives the largest image that fits into the box (up to rounding down); `ScaleUpper` one that covers it. -/
def C107_claim : Prop :=
  ∀ w h nw nh : Int, 1 ≤ w → w ≤ 2 ^ 25 → 1 ≤ h → h ≤ 2 ^ 25 → 1 ≤ nw → nw ≤ 2 ^ 25 → 1 ≤ nh → nh ≤ 2 ^ 25 →
    ((scaleSize w h nw nh 0 true).1 ≤ nw ∧ (scaleSize w h nw nh 0 true).2 ≤ nh) ∧
      (nw ≤ (scaleSize w h nw nh 0 false).1 ∧ nh ≤ (scaleSize w h nw nh 0 false).2)

/-- 7 × 3 over 35 × 15, the same ratio, gives 35 × 14. -/
theorem C107_claim_false : ¬ C107_claim := by
  intro h
  have := (h 7 3 35 15 (by decide) (by decide) (by decide) (by decide) (by decide) (by decide) (by decide) (by decide)).2
  revert this
  decide +kernel

/-- Missing for the claim: one row of `ScaleUpper`. Also, one of the sides of the box is met exactly. -/
theorem C107_box_partial {w h nw nh : Int} (hw : 1 ≤ w) (hw' : w ≤ 2 ^ 25) (hh : 1 ≤ h) (hh' : h ≤ 2 ^ 25)
    (h1 : 1 ≤ nw) (h1' : nw ≤ 2 ^ 25) (h2 : 1 ≤ nh) (h2' : nh ≤ 2 ^ 25) :
    ((scaleSize w h nw nh 0 true).1 ≤ nw ∧ (scaleSize w h nw nh 0 true).2 ≤ nh) ∧
      (nw ≤ (scaleSize w h nw nh 0 false).1 ∧ nh - 1 ≤ (scaleSize w h nw nh 0 false).2) ∧
      ∀ lower, (scaleSize w h nw nh 0 lower).1 = nw ∨ (scaleSize w h nw nh 0 lower).2 = nh := by
  refine ⟨lower_fits hw hw' hh hh' h1 h1' h2 h2', upper_covers hw hw' hh hh' h1 h1' h2 h2', fun lower => ?_⟩
  have m0 := mulr_nonneg hw (by omega) hh (by omega) (n := nh) (by omega) (by omega)
  have d0 := divr_nonneg hw (by omega) hh (by omega) (n := nw) (by omega) (by omega)
  have r1 : ∀ t : Int, 0 ≤ t → (resizeSize w h nw t).1 = nw := by
    intro t ht
    rw [resizeSize_eq, if_neg (by omega), if_neg (by omega), if_neg (by omega), if_neg (by omega)]
    split <;> rfl
  have r2 : ∀ t : Int, 0 ≤ t → (resizeSize w h t nh).2 = nh := by
    intro t ht
    rw [resizeSize_eq, if_neg (by omega), if_neg (by omega), if_neg (by omega)]
    split
    · rfl
    · rw [if_neg (by omega)]
  unfold scaleSize
  rw [ratioSize_eq (by omega) (by omega), if_neg (by omega)]
  unfold boxSize
  simp only
  repeat' split
  all_goals first | exact .inl (r1 _ d0) | exact .inr (r2 _ m0)

example : (scaleSize 1920 1080 500 500 0 true, scaleSize 1920 1080 500 500 0 false) = ((500, 281), (888, 500)) := by decide +kernel

/-! ## C108: the limit on pixels -/

def C108_claim : Prop :=
  ∀ (w h nw nh maxPixel : Int) (lower : Bool), 1 ≤ w → w ≤ 2 ^ 16 → 1 ≤ h → h ≤ 2 ^ 16 → 1 ≤ nw → nw ≤ 2 ^ 16 → 1 ≤ nh → nh ≤ 2 ^ 16 → 1 ≤ maxPixel →
    (scaleSize w h nw nh maxPixel lower).1 * (scaleSize w h nw nh maxPixel lower).2 ≤ maxPixel

/-- A line of 10000 pixels with a limit of 100 pixels becomes one of 1000. -/
theorem C108_claim_false : ¬ C108_claim := by
  intro h
  have := h 10000 1 10000 1 100 true (by decide) (by decide) (by decide) (by decide) (by decide) (by decide) (by decide) (by decide) (by decide)
  revert this
  decide +kernel

/-- The limit holds for every result that is not a line of one or two pixels. -/
theorem C108_limit_partial {w h nw nh maxPixel : Int} (lower : Bool) (hw : 1 ≤ w) (hw' : w ≤ 2 ^ 16) (hh : 1 ≤ h) (hh' : h ≤ 2 ^ 16)
    (h1 : 1 ≤ nw) (h1' : nw ≤ 2 ^ 16) (h2 : 1 ≤ nh) (h2' : nh ≤ 2 ^ 16) (hL : 1 ≤ maxPixel) :
    (scaleSize w h nw nh maxPixel lower).1 * (scaleSize w h nw nh maxPixel lower).2 ≤ maxPixel ∨
      (scaleSize w h nw nh maxPixel lower).1 ≤ 2 ∨ (scaleSize w h nw nh maxPixel lower).2 ≤ 2 := by
  exact limit_holds lower hw hw' hh hh' h1 h1' h2 h2' hL

example : scaleSize 4000 3000 2000 2000 1000000 false = (1154, 866) ∧ (1154 : Int) * 866 ≤ 1000000 := by decide +kernel

/-! ## C109: thumbnails of icons -/

/-- `Format = "ico"` adds thumbnails of exactly those of the sizes 16, 32, 48, 64, 128 that are smaller than both sides. -/
theorem C109_icons (w h : Int) : (icoSizes w h).map (fun n => (n.toNat : Int)) = [16, 32, 48, 64, 128].filter fun n => decide (n < w ∧ n < h) := by
  unfold icoSizes
  simp only
  rw [ico_list, List.map_map]
  have e : (fun n : Int => decide (n < min w h)) = fun n => decide (n < w ∧ n < h) := by
    funext n
    rw [decide_eq_decide]
    omega
  rw [e]
  have : ∀ l : List Int, (∀ n ∈ l, 0 ≤ n ∧ n < 256) → l.map ((fun n : UInt8 => (n.toNat : Int)) ∘ fun n => UInt8.ofInt n) = l := by
    intro l hl
    induction l with
    | nil => rfl
    | cons n l ih =>
      rw [List.map_cons, ih fun m hm => hl m (List.mem_cons_of_mem _ hm)]
      congr 1
      obtain ⟨a, b⟩ := hl n List.mem_cons_self
      simp only [Function.comp_apply]
      have : (UInt8.ofInt n).toNat = (n % 256).toNat := by simp [UInt8.ofInt]; omega
      rw [this]; omega
  apply this
  intro n hn
  have := List.mem_of_mem_filter hn
  simp at this
  omega

example : icoSizes 100 50 = [16, 32, 48] ∧ icoSizes 16 500 = [] ∧ icoSizes 256 256 = [16, 32, 48, 64, 128] := by decide +kernel

/-! ## C110: GIFs -/

/-- Every frame of a resized GIF lies in the canvas (otherwise `gif.EncodeAll` refuses it, and `ResizeGIF` drops that error and returns what
was written so far). -/
def C110_claim : Prop :=
  ∀ (frames : List Rect) (tw th : Int), 1 ≤ (gifCanvas frames).dx → (gifCanvas frames).dx ≤ 2 ^ 31 → 1 ≤ (gifCanvas frames).dy → (gifCanvas frames).dy ≤ 2 ^ 31 →
    (gifOut frames tw th).2.1 ≤ (gifOut frames tw th).1.1 ∧ (gifOut frames tw th).2.2 ≤ (gifOut frames tw th).1.2

/-- A banner of 1000 × 3 pixels to width 100: the canvas gets height 0, the frame height 1. -/
theorem C110_claim_false : ¬ C110_claim := by
  intro h
  have := h [⟨0, 0, 1000, 3⟩] 100 0 (by decide +kernel) (by decide +kernel) (by decide +kernel) (by decide +kernel)
  revert this
  decide +kernel

/-- The canvas is never larger than the original one nor than what is asked for; the frames have its size when it is not empty. -/
theorem C110_gif_partial (frames : List Rect) (tw th : Int) (hw : 1 ≤ (gifCanvas frames).dx) (hw' : (gifCanvas frames).dx ≤ 2 ^ 31)
    (hh : 1 ≤ (gifCanvas frames).dy) (hh' : (gifCanvas frames).dy ≤ 2 ^ 31) :
    ((gifOut frames tw th).1.1 ≤ (gifCanvas frames).dx ∧ (gifOut frames tw th).1.2 ≤ (gifCanvas frames).dy) ∧
      ((0 < tw → (gifOut frames tw th).1.1 ≤ tw) ∧ (0 < th → (gifOut frames tw th).1.2 ≤ th)) ∧
      (1 ≤ (gifOut frames tw th).1.1 → 1 ≤ (gifOut frames tw th).1.2 → (gifOut frames tw th).2 = (gifOut frames tw th).1) := by
  obtain ⟨⟨a1, a2, a3⟩, ⟨b1, b2, b3⟩⟩ := gif_le hw hw' hh hh' tw th
  refine ⟨⟨a2, b2⟩, ⟨a3, b3⟩, fun h1 h2 => ?_⟩
  unfold gifOut at h1 h2 ⊢
  simp only at h1 h2 ⊢
  rw [resizeSize_eq, if_neg (by omega), if_neg (by omega), if_neg (by omega), if_neg (by omega), if_neg (by omega)]

/-- Two frames, one of them with an offset. -/
example : gifCanvas [⟨10, 10, 20, 30⟩, ⟨0, 0, 100, 20⟩] = ⟨0, 0, 100, 30⟩ ∧ gifOut [⟨10, 10, 20, 30⟩, ⟨0, 0, 100, 20⟩] 50 50 = ((50, 15), (50, 15)) := by
  decide +kernel

/-! ## C111: the format asked for -/

/-- With `Format` set, data that can be decoded comes back in that format. -/
def C111_claim : Prop :=
  ∀ (lib : Lib Nat) (tr : Nat → Nat) (format : String) (src : List UInt8) (img : Nat) (itype : String), lib.dec src = some (img, itype) → format ≠ "" →
    ∃ f out, convFormat format = some f ∧ lib.enc f (tr img) = some out ∧ encode lib tr format src = out

/-- An unknown format is ignored without an error: the picture comes back as it was encoded before. -/
theorem C111_claim_false : ¬ C111_claim := by
  intro h
  obtain ⟨f, _, hf, _⟩ := h ⟨fun _ => some (0, "png"), fun _ _ => some [1]⟩ id "avif" [0] 0 "png" rfl (by decide)
  revert hf
  simp [convFormat]

/-- What comes back, in every case: the format asked for if it is known and its encoder succeeds, otherwise the type of the data, and if that
cannot be written, or the data cannot be decoded, the data itself. There is never an error. -/
theorem C111_format_partial {I : Type} (lib : Lib I) (tr : I → I) (format : String) (src : List UInt8) :
    (lib.dec src = none → encode lib tr format src = src) ∧
    (∀ img itype, lib.dec src = some (img, itype) →
      (∀ f out, format ≠ "" → convFormat format = some f → lib.enc f (tr img) = some out → encode lib tr format src = out) ∧
      ((format = "" ∨ convFormat format = none ∨ ∃ f, convFormat format = some f ∧ lib.enc f (tr img) = none) →
        let t := if itype = "" then imageType src else itype
        (∀ out, t ∈ encTypes → lib.enc t (tr img) = some out → encode lib tr format src = out) ∧
        ((t ∉ encTypes ∨ lib.enc t (tr img) = none) → encode lib tr format src = src))) := by
  refine ⟨fun h => by unfold encode; rw [h], fun img itype h => ⟨fun f out h1 h2 h3 => ?_, fun hc => ?_⟩⟩
  · unfold encode
    rw [h]
    simp [h1, h2, h3]
  · have hn : (if format = "" then none else (convFormat format).bind fun f => lib.enc f (tr img)) = none := by
      rcases hc with h1 | h1 | ⟨f, h1, h2⟩
      · simp [h1]
      · simp [h1]
      · simp [h1, h2]
    have e : encode lib tr format src = if (if itype = "" then imageType src else itype) ∈ encTypes then (lib.enc (if itype = "" then imageType src else itype) (tr img)).getD src else src := by
      unfold encode
      rw [h]
      simp only [hn]
    refine ⟨fun out h1 h2 => ?_, fun h1 => ?_⟩
    · rw [e, if_pos h1, h2]; rfl
    · rw [e]
      generalize (if itype = "" then imageType src else itype) = t at *
      by_cases h2 : t ∈ encTypes
      · rw [if_pos h2, h1.resolve_left (not_not_intro h2)]; rfl
      · rw [if_neg h2]

/-- The names that `Format` knows, and no others. -/
theorem C111_names (f g : String) : convFormat f = some g ↔ (f, g) ∈ [("jpg", "jpeg"), ("jpeg", "jpeg"), ("png", "png"), ("gif", "gif"),
    ("bmp", "bmp"), ("tif", "tiff"), ("tiff", "tiff"), ("webp", "webp"), ("ico", "ico")] := by
  constructor
  · intro h
    unfold convFormat at h
    repeat' split at h
    all_goals first | cases h | skip
    all_goals simp_all
    all_goals rename_i h; rcases h with rfl | rfl <;> simp
  · intro h
    simp only [List.mem_cons, Prod.mk.injEq, List.not_mem_nil, or_false] at h
    rcases h with ⟨rfl, rfl⟩ | ⟨rfl, rfl⟩ | ⟨rfl, rfl⟩ | ⟨rfl, rfl⟩ | ⟨rfl, rfl⟩ | ⟨rfl, rfl⟩ | ⟨rfl, rfl⟩ | ⟨rfl, rfl⟩ | ⟨rfl, rfl⟩ <;> decide +kernel

example : let lib : Lib Nat := ⟨fun d => if d = [7] then none else some (3, "ico"), fun t n => some [t.length.toUInt8, n.toUInt8]⟩
    (encode lib (· + 1) "tif" [0], encode lib (· + 1) "" [0], encode lib (· + 1) "png" [7]) = ([4, 4], [0], [7]) := by decide +kernel

/-! ## C112: types of real files -/

/-- AVIF files are recognised, and what is called webp is webp. -/
def C112_claim : Prop := (∀ d, isAvif d → imageType d = "avif") ∧ ∀ d, imageType d = "webp" → isRiff webp d

/-- No AVIF file is recognised, and every sound file in WAVE format is called webp. -/
theorem C112_wrong : (∀ d, isAvif d → imageType d ≠ "avif") ∧ ∀ d, isRiff wave d → imageType d = "webp" := by
  refine ⟨?_, ?_⟩
  · rintro d ⟨len, rest, hl, rfl⟩ h
    obtain ⟨a, b, c, e, rfl⟩ : ∃ a b c e, len = [a, b, c, e] := by
      match len, hl with
      | [a, b, c, e], _ => exact ⟨a, b, c, e, rfl⟩
    have h8 : 8 ≤ ([a, b, c, e] ++ [0x66, 0x74, 0x79, 0x70] ++ [0x61, 0x76, 0x69, 0x66] ++ rest : List UInt8).length := by simp
    rcases type_sound h8 with h' | ⟨m, hm, hp⟩
    · rw [h'] at h; exact absurd h (by decide)
    · rw [h] at hm
      simp [magics] at hm
      subst hm
      simp at hp
  · rintro d ⟨len, rest, hl, rfl⟩
    exact type_of_magic (m := [0x52, 0x49, 0x46, 0x46]) (by simp; omega) (by decide) (by simp)

theorem C112_claim_false : ¬ C112_claim := by
  intro h
  have ha : isAvif [0, 0, 0, 0x1C, 0x66, 0x74, 0x79, 0x70, 0x61, 0x76, 0x69, 0x66] := ⟨[0, 0, 0, 0x1C], [], rfl, rfl⟩
  exact C112_wrong.1 _ ha (h.1 _ ha)

/-- WebP files are recognised. -/
theorem C112_webp_partial (d : List UInt8) (h : isRiff webp d) : imageType d = "webp" := by
  obtain ⟨len, rest, hl, rfl⟩ := h
  exact type_of_magic (m := [0x52, 0x49, 0x46, 0x46]) (by simp; omega) (by decide) (by simp)

example : isRiff webp ([0x52, 0x49, 0x46, 0x46] ++ [1, 0, 0, 0] ++ webp ++ [5]) ∧ imageType [0x52, 0x49, 0x46, 0x46, 1, 0, 0, 0, 0x57, 0x41, 0x56, 0x45] = "webp" :=
  ⟨⟨[1, 0, 0, 0], [5], rfl, rfl⟩, by decide +kernel⟩

/-! ## C113: a higher quality is a higher quality -/

/-- A number for what the encoder is given: quality of JPEG and WebP, colours of GIF. -/
def level : Param → Int
  | .jpeg q => q
  | .webp q => q
  | .gif n => n
  | _ => 0

def C113_claim : Prop := ∀ (t : String) (q q' : Int), 1 ≤ q → q ≤ q' → level (quality t q) ≤ level (quality t q')

/-- Quality 100 is the lowest of all: 100 % 10 + 1 = 1, JPEG quality 7. -/
theorem C113_claim_false : ¬ C113_claim := by
  intro h
  have := h "jpeg" 10 100 (by decide) (by decide)
  revert this
  decide +kernel

/-- From 1 to 10 it is. -/
theorem C113_monotone_partial (t : String) (q q' : Int) (h1 : 1 ≤ q) (h2 : q ≤ q') (h3 : q' ≤ 10) : level (quality t q) ≤ level (quality t q') := by
  have tab : ∀ a ∈ List.range 10, ∀ b ∈ List.range 10, a ≤ b →
      level (quality "jpeg" (a + 1)) ≤ level (quality "jpeg" (b + 1)) ∧ level (quality "gif" (a + 1)) ≤ level (quality "gif" (b + 1)) ∧
        level (quality "webp" (a + 1)) ≤ level (quality "webp" (b + 1)) := by decide +kernel
  obtain ⟨a, ha⟩ := Int.eq_ofNat_of_zero_le (show 0 ≤ q - 1 by omega)
  obtain ⟨b, hb⟩ := Int.eq_ofNat_of_zero_le (show 0 ≤ q' - 1 by omega)
  have ea : q = (a : Int) + 1 := by omega
  have eb : q' = (b : Int) + 1 := by omega
  subst ea eb
  obtain ⟨t1, t2, t3⟩ := tab a (by simp; omega) b (by simp; omega) (by omega)
  by_cases j : t = "jpeg"
  · subst j; exact t1
  by_cases g : t = "gif"
  · subst g; exact t2
  by_cases v : t = "webp"
  · subst v; exact t3
  have z : ∀ q, level (quality t q) = 0 := by
    intro q
    unfold quality
    simp only [if_neg j, if_neg g, if_neg v]
    repeat' split
    all_goals rfl
  rw [z, z]

example : ([1, 5, 10].map fun q => level (quality "jpeg" q)) = [7, 37, 75] ∧ ([1, 5, 10].map fun q => level (quality "gif" q)) = [25, 128, 256] := by
  decide +kernel

/-! ## C114: something is left -/

/-- Resizing an image that is not empty never makes it empty, for requests that are not negative, in every mode. -/
theorem C114_not_empty {w h : Int} (hw : 1 ≤ w) (hw' : w ≤ 2 ^ 31) (hh : 1 ≤ h) (hh' : h ≤ 2 ^ 31) (mode : Int) {width height : Int}
    (h1 : 0 ≤ width) (h1' : width ≤ 2 ^ 31) (h2 : 0 ≤ height) (h2' : height ≤ 2 ^ 31) :
    1 ≤ (modeSize mode w h width height).1 ∧ 1 ≤ (modeSize mode w h width height).2 := by
  by_cases hc : mode ≠ 1 ∧ mode ≠ 5
  · refine mode_scale (fun p => 1 ≤ p.1 ∧ 1 ≤ p.2) hw hh ⟨hw, hh⟩ h1 h2 h1' h2' hw' hh' ?_ ?_ hc
    · intro a b ha hb
      obtain ⟨⟨p1, p2⟩, p3⟩ := min_pos hw hw' hh hh' ha hb
      exact resize_pos hw hh p1 p2 p3
    · intro a b ha hb
      obtain ⟨⟨p1, p2⟩, p3⟩ := max_pos hw hw' hh hh' ha hb
      exact resize_pos hw hh p1 p2 p3
  · by_cases hp : 0 < width ∨ 0 < height
    · exact mode_thumb (fun p => 1 ≤ p.1 ∧ 1 ≤ p.2) hw hh ⟨hw, hh⟩ (thumb_pos hw hh h1 h2 hp) (thumb_pos hw hh h2 h1 hp.symm) (by omega)
    · rw [modeSize_eq, if_neg hp]
      exact ⟨hw, hh⟩

example : modeSize 0 1 100000 10 0 = (1, 10) ∧ modeSize 5 1 100000 10 0 = (10, 10) := by decide +kernel

/-! ## C115: one side given -/

/-- Mode 2 with only one side given gives an image with that side, if the original is not smaller. -/
def C115_claim : Prop :=
  ∀ w h n : Int, 1 ≤ w → w ≤ 2 ^ 25 → 1 ≤ h → h ≤ 2 ^ 25 → 1 ≤ n →
    (n ≤ w → (modeSize 2 w h n 0).1 = n) ∧ (n ≤ h → (modeSize 2 w h 0 n).2 = n)

/-- A column 10 × 1000 that is to be 50 pixels high stays as it is; 234 × 54 for a width of 117 gets 116; 49 × 49 for a width of 1 stays as
it is. -/
theorem C115_witnesses : modeSize 2 10 1000 0 50 = (10, 1000) ∧ modeSize 2 234 54 117 0 = (116, 27) ∧ modeSize 2 49 49 1 0 = (49, 49) := by
  decide +kernel

theorem C115_claim_false : ¬ C115_claim := by
  intro h
  have := (h 10 1000 50 (by decide) (by decide) (by decide) (by decide) (by decide)).2 (by decide)
  rw [C115_witnesses.1] at this
  exact absurd this (by decide)

/-- If the other side keeps at least one pixel, a height is met exactly and a width up to one pixel. -/
theorem C115_side_partial {w h n : Int} (hw : 1 ≤ w) (hw' : w ≤ 2 ^ 25) (hh : 1 ≤ h) (hh' : h ≤ 2 ^ 25) (hn : 1 ≤ n) :
    (n ≤ w → w < n * h → n - 1 ≤ (modeSize 2 w h n 0).1 ∧ (modeSize 2 w h n 0).1 ≤ n) ∧
      (n ≤ h → h ≤ n * w → (modeSize 2 w h 0 n).2 = n) :=
  ⟨fun h1 h2 => width_only hw hw' hh hh' hn h1 h2, fun h1 h2 => height_only hw hw' hh hh' hn h1 h2⟩

example : modeSize 2 1920 1080 640 0 = (640, 360) ∧ modeSize 2 1920 1080 0 360 = (640, 360) := by decide +kernel

end Gofer.Props.Image
