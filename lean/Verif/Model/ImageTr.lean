import Verif.Model.Image
import Verif.Spec.Picture
/-!
# What `Encode` does to the picture (image/image.go:284-350)

Pixels are those of an `image.NRGBA` (the library converts every image it is given). Cropping, flipping, quarter turns, the negative and the greys of the library
(disintegration/imaging v1.6.2, from memory) are modelled pixel by pixel; resampling, blurring and rotation by other angles are parameters.
-/
namespace Gofer.ImageTr
open Gofer.Image Gofer.F64
open Gofer.Spec.Picture (Colour)

abbrev I := Img Colour

/-- What is not modelled of the library: `resample filter img w h`, `fill filter img w h`, `blur sigma img`, `rotate angle img`. -/
structure Lib where
  resample : Int → I → Int → Int → I
  fill : Int → I → Int → Int → I
  blur : Rat → I → I
  rotate : Rat → I → I

/-- `imaging.Clone`: the same pixels with the corner at 0. -/
def clone (img : I) : I := ⟨⟨0, 0, img.b.dx, img.b.dy⟩, fun x y => img.px (img.b.x0 + x) (img.b.y0 + y)⟩

/-- An image without pixels. -/
def noImage (img : I) : I := ⟨⟨0, 0, 0, 0⟩, img.px⟩

/-- `imaging.Resize` (resize.go). -/
def resize (lib : Lib) (filter : Int) (img : I) (w h : Int) : I :=
  if w < 0 ∨ h < 0 then noImage img
  else if w = 0 ∧ h = 0 then noImage img
  else if img.b.dx ≤ 0 ∨ img.b.dy ≤ 0 then noImage img
  else if resizeSize img.b.dx img.b.dy w h = (img.b.dx, img.b.dy) then clone img
  else lib.resample filter img (resizeSize img.b.dx img.b.dy w h).1 (resizeSize img.b.dx img.b.dy w h).2

/-- `imaging.Fill` with anchor `Center` (resize.go). -/
def fill (lib : Lib) (filter : Int) (img : I) (w h : Int) : I :=
  if w ≤ 0 ∨ h ≤ 0 then noImage img
  else if img.b.dx ≤ 0 ∨ img.b.dy ≤ 0 then noImage img
  else if img.b.dx = w ∧ img.b.dy = h then clone img
  else lib.fill filter img w h

/-- `imaging.FlipH` (transform.go); `flipHImage` (image/image.go:670-672). -/
def flipH (img : I) : I := ⟨⟨0, 0, img.b.dx, img.b.dy⟩, fun x y => img.px (img.b.x0 + (img.b.dx - 1 - x)) (img.b.y0 + y)⟩

/-- `imaging.FlipV` (transform.go); `flipVImage` (image/image.go:674-676). -/
def flipV (img : I) : I := ⟨⟨0, 0, img.b.dx, img.b.dy⟩, fun x y => img.px (img.b.x0 + x) (img.b.y0 + (img.b.dy - 1 - y))⟩

/-- `imaging.Rotate90`, `Rotate180`, `Rotate270` (transform.go), counter-clockwise: every row of the result is a column of the source, or a row reversed. -/
def rotate90 (img : I) : I := ⟨⟨0, 0, img.b.dy, img.b.dx⟩, fun x y => img.px (img.b.x0 + (img.b.dx - y - 1)) (img.b.y0 + x)⟩
def rotate180 (img : I) : I := ⟨⟨0, 0, img.b.dx, img.b.dy⟩, fun x y => img.px (img.b.x0 + (img.b.dx - 1 - x)) (img.b.y0 + (img.b.dy - y - 1))⟩
def rotate270 (img : I) : I := ⟨⟨0, 0, img.b.dy, img.b.dx⟩, fun x y => img.px (img.b.x0 + y) (img.b.y0 + (img.b.dy - 1 - x))⟩

/-- The angle in `imaging.Rotate`: `angle - math.Floor(angle/360)*360`. -/
def angleOf (degrees : Int) : Rat := rnd (ofInt degrees - mul ((div (ofInt degrees) 360).floor : Int) 360)

/-- `imaging.Rotate` (transform.go) of `float64(degrees)`; `rotateImage` (image/image.go:666-668). -/
def rotate (lib : Lib) (img : I) (degrees : Int) : I :=
  if angleOf degrees = 0 then clone img
  else if angleOf degrees = 90 then rotate90 img
  else if angleOf degrees = 180 then rotate180 img
  else if angleOf degrees = 270 then rotate270 img
  else lib.rotate (angleOf degrees) img

/-- The grey of `imaging.Grayscale` (adjust.go): `uint8(0.299*r + 0.587*g + 0.114*b + 0.5)`; products and sums are rounded one by one (no fused operations). -/
def luma (c : Colour) : UInt8 :=
  UInt8.ofInt (toInt (rnd (rnd (rnd (mul (rnd (299 / 1000)) (c.r.toNat : Int) + mul (rnd (587 / 1000)) (c.g.toNat : Int)) +
    mul (rnd (114 / 1000)) (c.b.toNat : Int)) + 1 / 2)))

/-- `imaging.Grayscale` (adjust.go); `convertToGrayByImage` (image/adjust.go:27-29). -/
def gray (img : I) : I :=
  ⟨⟨0, 0, img.b.dx, img.b.dy⟩, fun x y => ⟨luma (img.px (img.b.x0 + x) (img.b.y0 + y)), luma (img.px (img.b.x0 + x) (img.b.y0 + y)),
    luma (img.px (img.b.x0 + x) (img.b.y0 + y)), (img.px (img.b.x0 + x) (img.b.y0 + y)).a⟩⟩

/-- `imaging.Invert` (adjust.go); `invertByImage` (image/adjust.go:31-33). -/
def invert (img : I) : I :=
  ⟨⟨0, 0, img.b.dx, img.b.dy⟩, fun x y => ⟨255 - (img.px (img.b.x0 + x) (img.b.y0 + y)).r, 255 - (img.px (img.b.x0 + x) (img.b.y0 + y)).g,
    255 - (img.px (img.b.x0 + x) (img.b.y0 + y)).b, (img.px (img.b.x0 + x) (img.b.y0 + y)).a⟩⟩

/-- `Options` (image/image.go:48-62); nil slices are empty. -/
structure Options where
  gray : Bool := false
  invert : Bool := false
  format : String := ""
  rotate : Int := 0
  flipH : Bool := false
  flipV : Bool := false
  colors : Int := 0
  quality : Int := 0
  cropAnchor : List Int := []
  cropSide : List Int := []
  blur : Rat := 0
  scaleUpper : List Int := []
  scaleLower : List Int := []

/-- `scaleImageWithRatio` (image/adjust.go:90-122); 9 is the filter Lanczos. -/
def scaleRatio (lib : Lib) (img : I) (nw nh maxPixel : Int) (lower : Bool) : I :=
  resize lib 9 img (ratioSize img.b.dx img.b.dy nw nh maxPixel lower).1 (ratioSize img.b.dx img.b.dy nw nh maxPixel lower).2

/-- The steps for `CropAnchor` and `CropSide` (image/image.go:284-294). -/
def cropStep (f : I → Int → Int → Int → Int → I) (l : List Int) (img : I) : I :=
  match l with
  | [w, h, x, y] => f img w h x y
  | _ => img

/-- The steps for `ScaleUpper` and `ScaleLower` (image/image.go:296-314): two numbers or more; the third is used if there are exactly three. -/
def scaleStep (lib : Lib) (lower : Bool) (l : List Int) (img : I) : I :=
  match l with
  | [w, h, m] => scaleRatio lib img w h m lower
  | w :: h :: _ => scaleRatio lib img w h 0 lower
  | _ => img

/-- The numbers of the filters of `selectFilter` (image/image.go:386-421), 4 being MitchellNetravali. -/
def selectFilter (f : Int) : Int := if 0 ≤ f ∧ f ≤ 14 then f else 4

/-- The step for `width`, `height` and `mode` (image/image.go:316-326). -/
def sizeStep (lib : Lib) (filter mode width height : Int) (img : I) : I :=
  if 0 < width ∨ 0 < height then
    match praseMode mode img.b.dx img.b.dy width height with
    | (nw, nh, .scale) => resize lib (selectFilter filter) img nw nh
    | (nw, nh, .thumbnail) => fill lib (selectFilter filter) img nw nh
  else img

/-- Everything `Encode` does to the picture (image/image.go:284-350), as does `parseImage` (193-266). -/
def tr (lib : Lib) (filter mode width height : Int) (o : Options) (img : I) : I :=
  let img := cropStep cropImageByAnchor o.cropAnchor img
  let img := cropStep cropImageBySide o.cropSide img
  let img := scaleStep lib false o.scaleUpper img
  let img := scaleStep lib true o.scaleLower img
  let img := sizeStep lib filter mode width height img
  let img := if o.gray then gray img else img
  let img := if o.invert then invert img else img
  let img := if o.rotate ≠ 0 then rotate lib img o.rotate else img
  let img := if o.flipH then flipH img else img
  let img := if o.flipV then flipV img else img
  if 0 < o.blur then lib.blur o.blur img else img

/-- `Encode` (image/image.go:268-384); what it returns besides a nil error. -/
def encodeOpts (files : Gofer.Image.Lib I) (lib : Lib) (filter mode width height : Int) (o : Options) (src : List UInt8) : List UInt8 :=
  Gofer.Image.encode files (tr lib filter mode width height o) o.format src

/-- `Resize` (image/image.go:423-428). -/
def resizeFile (files : Gofer.Image.Lib I) (lib : Lib) (filter mode width height : Int) (src : List UInt8) : List UInt8 :=
  if width = 0 ∧ height = 0 then src else encodeOpts files lib filter mode width height {} src

end Gofer.ImageTr
