import Verif.Model.Float64

/-!
# Model of `image/image.go` and `image/adjust.go`

Sizes, rectangles and decisions. Pixels are a function of the coordinates; what the libraries do to pixels when they resample, encode
and decode is not modelled. `int` is `Int` with additions and products taken modulo 2⁶⁴ where they may overflow; sides of images
(`Bounds`) do not overflow. Slices of ints given in `Options` are their four or three numbers.
-/
namespace Gofer.Image
open Gofer

/-- Overflow of `int`. -/
def wrap (n : Int) : Int := Int.bmod n (2 ^ 64)

/-- `image.Rectangle`. -/
structure Rect where
  x0 : Int
  y0 : Int
  x1 : Int
  y1 : Int
deriving DecidableEq, Repr

/-- `image.Rect`: swaps the coordinates if necessary. -/
def mkRect (x0 y0 x1 y1 : Int) : Rect :=
  let (x0, x1) := if x1 < x0 then (x1, x0) else (x0, x1)
  let (y0, y1) := if y1 < y0 then (y1, y0) else (y0, y1)
  ⟨x0, y0, x1, y1⟩
/-- `Rectangle.Empty`, `Rectangle.Intersect`, `Rectangle.Union`. -/
def Rect.empty (r : Rect) : Bool := decide (r.x1 ≤ r.x0) || decide (r.y1 ≤ r.y0)
def Rect.inter (r s : Rect) : Rect :=
  let t : Rect := ⟨max r.x0 s.x0, max r.y0 s.y0, min r.x1 s.x1, min r.y1 s.y1⟩
  if t.empty then ⟨0, 0, 0, 0⟩ else t
def Rect.union (r s : Rect) : Rect :=
  if r.empty then s else if s.empty then r else ⟨min r.x0 s.x0, min r.y0 s.y0, max r.x1 s.x1, max r.y1 s.y1⟩
def Rect.dx (r : Rect) : Int := r.x1 - r.x0
def Rect.dy (r : Rect) : Int := r.y1 - r.y0

/-- `image.Image`: `Bounds` and `At`. -/
structure Img (α : Type) where
  b : Rect
  px : Int → Int → α

/-- `imaging.Crop` (disintegration/imaging v1.6.2, tools.go): the rectangle is meant in the coordinates of the image; the result has its
corner at 0. -/
def imagingCrop {α : Type} (img : Img α) (rect : Rect) : Img α :=
  let r := rect.inter img.b
  if r.empty then ⟨⟨0, 0, 0, 0⟩, img.px⟩
  else ⟨⟨0, 0, r.dx, r.dy⟩, fun i j => img.px (r.x0 + i) (r.y0 + j)⟩

/-- `cropImage` (image/adjust.go:35-42); `none` is the error. -/
def cropImage {α : Type} (img : Img α) (width height x y : Int) : Option (Img α) :=
  if x < 0 ∨ y < 0 ∨ img.b.dx < wrap (x + width) ∨ img.b.dy < wrap (y + height) then none
  else some (imagingCrop img (mkRect x y (wrap (x + width)) (wrap (y + height))))

/-- `cropImageByAnchor` (image/adjust.go:44-63); it never fails. -/
def cropImageByAnchor {α : Type} (img : Img α) (width height x y : Int) : Img α :=
  if 0 ≤ x ∧ 0 ≤ y ∧ wrap (x + width) ≤ img.b.dx ∧ wrap (y + height) ≤ img.b.dy then
    imagingCrop img (mkRect x y (wrap (x + width)) (wrap (y + height)))
  else
    let nw := if img.b.dx < wrap (x + width) then wrap (img.b.dx - x) else width
    let nh := if img.b.dy < wrap (y + height) then wrap (img.b.dy - y) else height
    imagingCrop img (mkRect x y (wrap (x + nw)) (wrap (y + nh)))

/-- `clamp` (image/adjust.go:77-84). -/
def clamp (value min max : Int) : Int := if value < min then min else if max < value then max else value

/-- `cropImageBySide` (image/adjust.go:65-75); it never fails. -/
def cropImageBySide {α : Type} (img : Img α) (width height x y : Int) : Img α :=
  let x := clamp x 0 (wrap (img.b.dx - width))
  let y := clamp y 0 (wrap (img.b.dy - height))
  imagingCrop img (mkRect x y (wrap (x + width)) (wrap (y + height)))

/-! ## Sizes -/

open F64

/-- The size of the result of `imaging.Resize` (disintegration/imaging v1.6.2, resize.go) on an image `w × h`. -/
def resizeSize (w h nw nh : Int) : Int × Int :=
  if nw < 0 ∨ nh < 0 then (0, 0)
  else if nw = 0 ∧ nh = 0 then (0, 0)
  else if w ≤ 0 ∨ h ≤ 0 then (0, 0)
  else if nw = 0 then (toInt (max 1 ((rnd (div (mul (ofInt nh) (ofInt w)) (ofInt h) + 1 / 2)).floor : Rat)), nh)
  else if nh = 0 then (nw, toInt (max 1 ((rnd (div (mul (ofInt nw) (ofInt h)) (ofInt w) + 1 / 2)).floor : Rat)))
  else (nw, nh)

/-- The size of the result of `imaging.Fill` (disintegration/imaging v1.6.2, resize.go) on an image `w × h`. -/
def fillSize (w h nw nh : Int) : Int × Int :=
  if nw ≤ 0 ∨ nh ≤ 0 then (0, 0) else if w ≤ 0 ∨ h ≤ 0 then (0, 0) else (nw, nh)

/-- `newSide4mode` (image/image.go:505-511). -/
def newSide4mode (w h width height : Int) : Int × Int := if h ≤ w then (width, height) else (height, width)

/-- `getMinAndkeepRatio` (image/image.go:513-538). -/
def getMinAndkeepRatio (w h nw0 nh0 : Int) : Int × Int :=
  let nw := if nw0 = 0 then w else nw0
  let nh := if nh0 = 0 then h else nh0
  if w ≤ nw ∧ h ≤ nh then (w, h)
  else
    let r := div (ofInt w) (ofInt h)
    if nw < w ∧ nh < h then
      if nh < nw then (toInt (mul (ofInt nh) r), nh) else (nw, toInt (div (ofInt nw) r))
    else if w ≤ nw then (toInt (mul (ofInt nh) r), nh) else (nw, toInt (div (ofInt nw) r))

/-- `getMaxAndkeepRatio` (image/image.go:540-560). -/
def getMaxAndkeepRatio (w h nw0 nh0 : Int) : Int × Int :=
  let nw := if nw0 = 0 then w else nw0
  let nh := if nh0 = 0 then h else nh0
  if w ≤ nw ∨ h ≤ nh then (w, h)
  else if nw < w ∧ nh < h then
    let r := div (ofInt w) (ofInt h)
    if div (ofInt nh) (ofInt h) < div (ofInt nw) (ofInt w) then (nw, toInt (div (ofInt nw) r)) else (toInt (mul (ofInt nh) r), nh)
  else (nw, nh)

/-- `getSideByThubnail` (image/image.go:562-577). -/
def getSideByThubnail (w h width height : Int) : Int × Int :=
  let nw := if width < w then width else w
  let nh := if height < h then height else h
  let nw := if nw = 0 then nh else nw
  let nh := if nh = 0 then nw else nh
  (nw, nh)

/-- `ResizeType` (image/image.go:31, 34-37). -/
inductive ResizeType where
  | scale
  | thumbnail
deriving DecidableEq, Repr

/-- `praseMode` (image/image.go:457-503); `Mode` is an int8 with names for 0 to 5 (32, 39-46). -/
def praseMode (mode w h preWidth preHeight : Int) : Int × Int × ResizeType :=
  let (width, height) := newSide4mode w h preWidth preHeight
  if w < width ∧ h < height then (w, h, .scale)
  else if mode = 0 then
    let (a, b) := getMinAndkeepRatio w h width height
    (a, b, .scale)
  else if mode = 1 then
    let (a, b) := getSideByThubnail w h preWidth preHeight
    (a, b, .thumbnail)
  else if mode = 2 then
    let (a, b) :=
      if preWidth = 0 then getMaxAndkeepRatio w h (toInt (div (mul (ofInt preHeight) (ofInt w)) (ofInt h))) preHeight
      else if preHeight = 0 then getMaxAndkeepRatio w h preWidth (toInt (mul (div (ofInt preWidth) (ofInt w)) (ofInt h)))
      else getMaxAndkeepRatio w h width height
    (a, b, .scale)
  else if mode = 3 then
    let (pw, ph) := if preWidth = 0 then (preHeight, preHeight) else if preHeight = 0 then (preWidth, preWidth) else (preWidth, preHeight)
    let (a, b) := getMaxAndkeepRatio w h pw ph
    (a, b, .scale)
  else if mode = 4 then
    let (pw, ph) := if width = 0 then (height, height) else if height = 0 then (width, width) else (width, height)
    let (a, b) := getMaxAndkeepRatio w h pw ph
    (a, b, .scale)
  else if mode = 5 then
    let (a, b) := getSideByThubnail w h width height
    (a, b, .thumbnail)
  else (w, h, .scale)

/-- The size of an image `w × h` after the step `if width > 0 || height > 0` of `Encode` and `parseImage` (image/image.go:230-240,
316-326). -/
def modeSize (mode w h width height : Int) : Int × Int :=
  if 0 < width ∨ 0 < height then
    match praseMode mode w h width height with
    | (nw, nh, .scale) => resizeSize w h nw nh
    | (nw, nh, .thumbnail) => fillSize w h nw nh
  else (w, h)

/-- `scaleDownToLimit` (image/adjust.go:124-134). -/
def scaleDownToLimit (a b limit : Int) : Int × Int :=
  if a ≤ 0 ∨ b ≤ 0 ∨ limit ≤ 0 then (0, 0)
  else if wrap (a * b) < limit then (a, b)
  else
    let s := F64.sqrt (div (ofInt limit) (ofInt (wrap (a * b))))
    (toInt (mul (ofInt a) s), toInt (mul (ofInt b) s))

/-- The size that `scaleImageWithRatio` (image/adjust.go:90-122) gives to `imaging.Resize`, for an image `w × h`. -/
def ratioSize (w h nw0 nh0 maxPixel : Int) (lower : Bool) : Int × Int :=
  let nw := if nw0 = 0 then 1 else nw0
  let nh := if nh0 = 0 then 1 else nh0
  let r := div (ofInt w) (ofInt h)
  let (nw, nh) :=
    if lower then
      if div (ofInt nw) (ofInt nh) < r then (nw, toInt (div (ofInt nw) r)) else (toInt (mul (ofInt nh) r), nh)
    else
      if div (ofInt nw) (ofInt nh) < r then (toInt (mul (ofInt nh) r), nh) else (nw, toInt (div (ofInt nw) r))
  if 0 < maxPixel ∧ maxPixel < wrap (nw * nh) then scaleDownToLimit nw nh maxPixel else (nw, nh)
/-- The size of the result of `scaleImageWithRatio`. -/
def scaleSize (w h nw nh maxPixel : Int) (lower : Bool) : Int × Int :=
  let (a, b) := ratioSize w h nw nh maxPixel lower
  resizeSize w h a b

/-- The canvas of `resizeGIF` (image/image.go:138-143). -/
def gifCanvas (frames : List Rect) : Rect := frames.foldl Rect.union (mkRect 0 0 0 0)

/-- `newW`, `newH` of `resizeGIF` (image/image.go:145-162); `none` is the infinity. -/
def gifSize (cw ch tw th : Int) : Int × Int :=
  let sx := if 0 < tw then some (div (ofInt tw) (ofInt cw)) else none
  let sy := if 0 < th then some (div (ofInt th) (ofInt ch)) else none
  let scale : Rat :=
    match sx, sy with
    | none, none => 1
    | some a, none => if 1 < a then 1 else a
    | none, some b => if 1 < b then 1 else b
    | some a, some b => if 1 < min a b then 1 else min a b
  (toInt (mul (ofInt cw) scale), toInt (mul (ofInt ch) scale))

/-- Size of the canvas (`Config`) and of every frame of the result of `resizeGIF` (image/image.go:164-190). -/
def gifOut (frames : List Rect) (tw th : Int) : (Int × Int) × (Int × Int) :=
  let c := gifCanvas frames
  let (nw, nh) := gifSize c.dx c.dy tw th
  ((nw, nh), resizeSize c.dx c.dy nw nh)

/-! ## Types and quality -/

/-- `imageType` (image/image.go:430-455). -/
def imageType (d : List UInt8) : String :=
  if d.length < 8 then ""
  else if d.take 8 = [0x89, 0x50, 0x4E, 0x47, 0x0D, 0x0A, 0x1A, 0x0A] then "png"
  else if d.take 2 = [0x42, 0x4D] then "bmp"
  else if d.take 2 = [0xFF, 0xD8] then "jpeg"
  else if d.take 6 = [0x47, 0x49, 0x46, 0x38, 0x39, 0x61] ∨ d.take 6 = [0x47, 0x49, 0x46, 0x38, 0x37, 0x61] then "gif"
  else if d.take 4 = [0x49, 0x49, 0x2A, 0x00] ∨ d.take 4 = [0x4D, 0x4D, 0x00, 0x2A] then "tiff"
  else if d.take 4 = [0x52, 0x49, 0x46, 0x46] then "webp"
  else if d.take 4 = [0x38, 0x42, 0x50, 0x53] then "psd"
  else if d.take 4 = [0x00, 0x00, 0x01, 0x00] then "ico"
  else if d.take 8 = [0x00, 0x00, 0x00, 0x0C, 0x61, 0x76, 0x69, 0x66] then "avif"
  else ""

/-- `if quality > 10 { quality = quality%10 + 1 }` (image/image.go:580-582, 595-597); `%` of Go. -/
def normQuality (q : Int) : Int := if 10 < q then q.tmod 10 + 1 else q

/-- The parameters that `Quality` (image/image.go:594-625) gives to the encoders. -/
inductive Param where
  | jpeg (quality : Int)
  | pngBestSpeed
  | pngDefault
  | pngBestCompression
  | gif (numColors : Int)
  | tiff
  | webp (quality : Int)
  /-- no encoder is called, the result is `nil, nil` -/
  | nothing
deriving DecidableEq, Repr
def quality (imagetype : String) (q0 : Int) : Param :=
  let q := normQuality q0
  if imagetype = "jpeg" then .jpeg (toInt (mul (ofInt q) (15 / 2)))
  else if imagetype = "png" then (if 8 ≤ q then .pngBestSpeed else if 4 ≤ q then .pngDefault else .pngBestCompression)
  else if imagetype = "gif" then .gif (toInt (mul (ofInt q) (rnd (128 / 5))))
  else if imagetype = "tiff" then .tiff
  else if imagetype = "webp" then .webp (q * 9)
  else .nothing
/-- What `QualityByBinary` (image/image.go:579-592) gives to the encoder. -/
def qualityByBinary (d : List UInt8) (q0 : Int) : Param := quality (imageType d) (normQuality q0)

/-- `sort.SearchInts`: the first index with a value not less than `x`. -/
def searchInts (l : List Int) (x : Int) : Nat := (l.takeWhile fun y => decide (y < x)).length
/-- `sort.Ints`. -/
def insertSorted (x : Int) : List Int → List Int
  | [] => [x]
  | y :: l => if x ≤ y then x :: y :: l else y :: insertSorted x l
def sortInts : List Int → List Int
  | [] => []
  | x :: l => insertSorted x (sortInts l)

/-- The thumbnails of `convertImageFormat` for "ico" (image/image.go:641-659), as `uint8`. -/
def icoSizes (w h : Int) : List UInt8 :=
  let sizes := sortInts [16, 32, 48, 64, 128, w, h]
  let k := min (searchInts sizes w) (searchInts sizes h)
  (sizes.take k).map fun n => UInt8.ofInt n

/-! ## `Encode` -/

/-- What the libraries do with a file: `dec` is `image.Decode` (image and type), `enc` the encoder of a type, `none` is an error. -/
structure Lib (I : Type) where
  dec : List UInt8 → Option (I × String)
  enc : String → I → Option (List UInt8)

/-- The types `Encode` can write (image/image.go:364-379), and those of `convertImageFormat` (628-662). -/
def encTypes : List String := ["jpeg", "png", "gif", "bmp", "tiff", "webp"]
def convFormat (f : String) : Option String :=
  if f = "jpg" ∨ f = "jpeg" then some "jpeg"
  else if f = "png" then some "png"
  else if f = "gif" then some "gif"
  else if f = "bmp" then some "bmp"
  else if f = "tif" ∨ f = "tiff" then some "tiff"
  else if f = "webp" then some "webp"
  else if f = "ico" then some "ico"
  else none

/-- `Image.Encode` (image/image.go:268-384) without panics: `tr` is what the options, the size and the mode do to the image (284-350);
`format` is `options.Format`. The error is always nil. -/
def encode {I : Type} (lib : Lib I) (tr : I → I) (format : String) (src : List UInt8) : List UInt8 :=
  match lib.dec src with
  | none => src
  | some (img, itype) =>
    let img := tr img
    match (if format = "" then none else (convFormat format).bind fun f => lib.enc f img) with
    | some out => out
    | none =>
      let itype := if itype = "" then imageType src else itype
      if itype ∈ encTypes then (lib.enc itype img).getD src else src

end Gofer.Image
