import Verif.Model.ImageTr
/-!
# Resampling and blurring (disintegration/imaging v1.6.2, resize.go, effects.go, from memory)

What `Model/ImageTr.lean` leaves to `Lib`: `imaging.Resize` with a filter, `imaging.Fill`, `imaging.Blur`, as image/image.go:320-326, image/adjust.go:86-88 and 120 use
them. A picture is worked on line by line; a line is a function of the column (or row). Every operation on `float64` is rounded (Model/Float64.lean; no fused operations).
The values of `math.Exp` and `math.Sin` are not modelled: the filters that use them and the weights of `Blur` are parameters.
-/
namespace Gofer.Resample
open Gofer.Image Gofer.F64 Gofer.ImageTr
open Gofer.Spec.Picture (Colour)

/-- `ResampleFilter` (resize.go). -/
structure Filter where
  support : Rat
  kernel : Rat → Rat

/-- `math.Abs`. -/
def abs64 (x : Rat) : Rat := if 0 ≤ x then x else -x

/-- `bcspline` (resize.go); the two constants `b` and `c`. -/
def bcspline (x b c : Rat) : Rat :=
  let x := abs64 x
  if x < 1 then
    let p := mul (mul (mul (rnd (rnd (12 - mul 9 b) - mul 6 c)) x) x) x
    let q := mul (mul (rnd (rnd (-18 + mul 12 b) + mul 6 c)) x) x
    div (rnd (rnd (p + q) + rnd (6 - mul 2 b))) 6
  else if x < 2 then
    let p := mul (mul (mul (rnd (-b - mul 6 c)) x) x) x
    let q := mul (mul (rnd (mul 6 b + mul 30 c)) x) x
    let r := mul (rnd (mul (-12) b - mul 48 c)) x
    div (rnd (rnd (rnd (p + q) + r) + rnd (mul 8 b + mul 24 c))) 6
  else 0

/-- The filters by the numbers of `selectFilter` (image/image.go:386-421). `other` stands for those with `math.Exp` and `math.Sin` (Gaussian and 8 to 14). -/
def filterOf (other : Int → Filter) (n : Int) : Filter :=
  if n = 0 then ⟨0, fun _ => 0⟩
  else if n = 1 then ⟨1 / 2, fun x => if abs64 x ≤ 1 / 2 then 1 else 0⟩
  else if n = 2 then ⟨1, fun x => if abs64 x < 1 then rnd (1 - abs64 x) else 0⟩
  else if n = 3 then ⟨1, fun x => if abs64 x < 1 then bcspline (abs64 x) 0 0 else 0⟩
  else if n = 4 then ⟨2, fun x => if abs64 x < 2 then bcspline (abs64 x) (rnd (1 / 3)) (rnd (1 / 3)) else 0⟩
  else if n = 5 then ⟨2, fun x => if abs64 x < 2 then bcspline (abs64 x) 0 (1 / 2) else 0⟩
  else if n = 6 then ⟨2, fun x => if abs64 x < 2 then bcspline (abs64 x) 1 0 else 0⟩
  else other n

/-! ## One line -/

/-- The sums of red, green, blue and opacity. -/
structure Acc where
  r : Rat := 0
  g : Rat := 0
  b : Rat := 0
  a : Rat := 0

/-- One pixel with its weight (the innermost loop of `resizeHorizontal`, `resizeVertical`, `blurHorizontal`, `blurVertical`). -/
def Acc.add (s : Acc) (c : Colour) (w : Rat) : Acc :=
  let aw := mul (c.a.toNat : Int) w
  ⟨rnd (s.r + mul (c.r.toNat : Int) aw), rnd (s.g + mul (c.g.toNat : Int) aw), rnd (s.b + mul (c.b.toNat : Int) aw), rnd (s.a + aw)⟩

/-- All pixels with weights. -/
def gather (line : Int → Colour) (ws : List (Int × Rat)) : Acc := ws.foldl (fun s w => s.add (line w.1) w.2) {}

/-- `clamp` (utils.go). -/
def clamp8 (x : Rat) : UInt8 :=
  let v := toInt (rnd (x + 1 / 2))
  if 255 < v then 255 else if 0 < v then UInt8.ofInt v else 0

/-- The pixel written for the sums; `a` is the opacity. Nothing is written (all zero) if the sum of the opacities is 0. -/
def Acc.out (s : Acc) (a : Rat) : Colour :=
  if s.a = 0 then ⟨0, 0, 0, 0⟩
  else ⟨clamp8 (mul s.r (div 1 s.a)), clamp8 (mul s.g (div 1 s.a)), clamp8 (mul s.b (div 1 s.a)), clamp8 a⟩

/-- `begin`, `begin + 1`, …, `end`. -/
def fromTo (a b : Int) : List Int := (List.range (b + 1 - a).toNat).map fun i : Nat => a + (i : Int)

/-- The sum of weights, added up one by one. -/
def total (ws : List (Int × Rat)) : Rat := ws.foldl (fun s w => rnd (s + w.2)) 0

/-- `du`, `scale`, `ru` and `fu` of `precomputeWeights` (resize.go). -/
def stepOf (dst src : Int) : Rat := div (ofInt src) (ofInt dst)
def scaleOf (dst src : Int) : Rat := if stepOf dst src < 1 then 1 else stepOf dst src
def reach (f : Filter) (dst src : Int) : Rat := ((mul (scaleOf dst src) f.support).ceil : Int)
def centre (dst src v : Int) : Rat := rnd (mul (rnd (ofInt v + 1 / 2)) (stepOf dst src) - 1 / 2)

/-- The pixels of the source with their kernel values, where not 0. -/
def raw (f : Filter) (dst src v : Int) : List (Int × Rat) :=
  let fu := centre dst src v
  let b := (rnd (fu - reach f dst src)).ceil
  let e := (rnd (fu + reach f dst src)).floor
  ((fromTo (if b < 0 then 0 else b) (if src - 1 < e then src - 1 else e)).map fun u => (u, f.kernel (div (rnd (ofInt u - fu)) (scaleOf dst src)))).filter
    fun w => decide (w.2 ≠ 0)

/-- `precomputeWeights` (resize.go) for the pixel `v` of the result. -/
def weights (f : Filter) (dst src v : Int) : List (Int × Rat) :=
  let ws := raw f dst src v
  if total ws = 0 then ws else ws.map fun w => (w.1, div w.2 (total ws))

/-- `resizeHorizontal` and `resizeVertical` (resize.go). -/
def resizeH (f : Filter) (img : I) (w : Int) : I :=
  ⟨⟨0, 0, w, img.b.dy⟩, fun x y =>
    let s := gather (fun u => img.px (img.b.x0 + u) (img.b.y0 + y)) (weights f w img.b.dx x)
    s.out s.a⟩
def resizeV (f : Filter) (img : I) (h : Int) : I :=
  ⟨⟨0, 0, img.b.dx, h⟩, fun x y =>
    let s := gather (fun u => img.px (img.b.x0 + x) (img.b.y0 + u)) (weights f h img.b.dy y)
    s.out s.a⟩

/-- `int((float64(x) + 0.5) * dx)` in `resizeNearest` (resize.go). -/
def pick (dst src x : Int) : Int := toInt (mul (rnd (ofInt x + 1 / 2)) (stepOf dst src))

/-- `resizeNearest` (resize.go). -/
def nearest (img : I) (w h : Int) : I :=
  ⟨⟨0, 0, w, h⟩, fun x y => img.px (img.b.x0 + pick w img.b.dx x) (img.b.y0 + pick h img.b.dy y)⟩

/-- `Resize` (resize.go) where the size changes. -/
def resample (f : Filter) (img : I) (w h : Int) : I :=
  if f.support ≤ 0 then nearest img w h
  else if img.b.dx ≠ w ∧ img.b.dy ≠ h then resizeV f (resizeH f img w) h
  else if img.b.dx ≠ w then resizeH f img w
  else resizeV f img h

/-! ## Thumbnails -/

/-- `CropAnchor` (tools.go) with `Center`; `/` of Go. -/
def cropCentre (img : I) (w h : Int) : I :=
  let x := img.b.x0 + (img.b.dx - w).tdiv 2
  let y := img.b.y0 + (img.b.dy - h).tdiv 2
  imagingCrop img (img.b.inter ⟨x, y, x + w, y + h⟩)

/-- `int(math.Max(1, x)+0.5)`, of the length `srcW * dstH / dstW`, in `cropAndResize` (resize.go). -/
def part (a b c : Int) : Int :=
  let x := div (mul (ofInt a) (ofInt b)) (ofInt c)
  toInt (rnd ((if 1 < x then x else 1) + 1 / 2))

/-- `Fill` (resize.go) where the size changes: `cropAndResize` for a source of at least 100 × 100, `resizeAndCrop` for others. `resize` is `imaging.Resize`. -/
def fillWith (resize : I → Int → Int → I) (img : I) (w h : Int) : I :=
  let tall := decide (div (ofInt img.b.dx) (ofInt img.b.dy) < div (ofInt w) (ofInt h))
  if 100 ≤ img.b.dx ∧ 100 ≤ img.b.dy then
    if tall then resize (cropCentre img img.b.dx (part img.b.dx h w)) w h
    else resize (cropCentre img (part img.b.dy w h) img.b.dy) w h
  else
    if tall then cropCentre (resize img w 0) w h
    else cropCentre (resize img 0 h) w h

/-! ## Blurring -/

/-- The pixels and weights for one pixel of a line of length `n` in `blurHorizontal`, `blurVertical` (effects.go). -/
def blurWeights (kernel : Nat → Rat) (radius n x : Int) : List (Int × Rat) :=
  (fromTo (if x - radius < 0 then 0 else x - radius) (if n - 1 < x + radius then n - 1 else x + radius)).map fun u => (u, kernel (x - u).natAbs)

/-- `blurHorizontal`, `blurVertical` (effects.go). -/
def blurH (kernel : Nat → Rat) (radius : Int) (img : I) : I :=
  ⟨⟨0, 0, img.b.dx, img.b.dy⟩, fun x y =>
    let ws := blurWeights kernel radius img.b.dx x
    let s := gather (fun u => img.px (img.b.x0 + u) (img.b.y0 + y)) ws
    s.out (div s.a (total ws))⟩
def blurV (kernel : Nat → Rat) (radius : Int) (img : I) : I :=
  ⟨⟨0, 0, img.b.dx, img.b.dy⟩, fun x y =>
    let ws := blurWeights kernel radius img.b.dy y
    let s := gather (fun u => img.px (img.b.x0 + x) (img.b.y0 + u)) ws
    s.out (div s.a (total ws))⟩

/-- `Blur` (effects.go) for a positive `sigma`; `bell sigma i` is `gaussianBlurKernel(float64(i), sigma)`. Image/adjust.go:86-88. -/
def blur (bell : Rat → Nat → Rat) (sigma : Rat) (img : I) : I :=
  let radius := (mul sigma 3).ceil
  blurV (bell sigma) radius (blurH (bell sigma) radius img)

/-- `imaging.Resize` alone. -/
def plain (other : Int → Filter) : Lib := ⟨fun n img w h => resample (filterOf other n) img w h, fun _ i _ _ => i, fun _ i => i, fun _ i => i⟩

/-- The library; turns by angles that are no multiple of 90 degrees remain a parameter. -/
def lib (other : Int → Filter) (bell : Rat → Nat → Rat) (turn : Rat → I → I) : Lib where
  resample n img w h := resample (filterOf other n) img w h
  fill n img w h := fillWith (resize (plain other) n) img w h
  blur sigma img := blur bell sigma img
  rotate := turn

end Gofer.Resample
