import Verif.Model.ImageTr
import Verif.Spec.Anim
/-!
# Model of `resizeGIF` (image/image.go:133-191), pixel by pixel
-/
namespace Gofer.Gif
open Gofer.Image
open Gofer.Spec.Picture (Colour)
open Gofer.Spec.Anim (Frame)

/-- A frame of a `gif.GIF`: `image.Paletted`. -/
structure PFrame where
  rect : Rect
  palette : List Colour
  px : Int → Int → Colour

/-- `gif.GIF`: the screen (`Config.Width`, `Config.Height`), the frames and what is said about them. -/
structure GIF where
  w : Int
  h : Int
  frames : List PFrame
  delay : List Int
  disposal : List UInt8
  loops : Int

/-- The libraries: `imaging.Blur` with 0.5, `imaging.Resize` with Lanczos to a size, `draw.FloydSteinberg.Draw` into a palette (each gives the pixel of the result). -/
structure Lib where
  blur : (Int → Int → Colour) → Int → Int → Colour
  scale : Int → Int → (Int → Int → Colour) → Int → Int → Colour
  dither : List Colour → (Int → Int → Colour) → Int → Int → Colour

/-- The frame on an otherwise transparent canvas (image/image.go:176-178), counted from the corner of the canvas. -/
def onCanvas (c : Rect) (f : PFrame) (x y : Int) : Colour :=
  if f.rect.x0 ≤ c.x0 + x ∧ c.x0 + x < f.rect.x1 ∧ f.rect.y0 ≤ c.y0 + y ∧ c.y0 + y < f.rect.y1 then f.px (c.x0 + x) (c.y0 + y) else ⟨0, 0, 0, 0⟩

/-- `resizeGIF` (image/image.go:133-191), for at least one frame. -/
def resizeGif (lib : Lib) (g : GIF) (tw th : Int) : GIF :=
  let c := gifCanvas (g.frames.map PFrame.rect)
  let n := gifOut (g.frames.map PFrame.rect) tw th
  { w := n.1.1, h := n.1.2, delay := g.delay, disposal := g.disposal, loops := g.loops
    frames := g.frames.map fun f =>
      { rect := ⟨0, 0, n.2.1, n.2.2⟩, palette := f.palette
        px := lib.dither f.palette (lib.scale n.2.1 n.2.2 (lib.blur (onCanvas c f))) } }

/-- The frames as the viewer takes them. -/
def GIF.anim (g : GIF) : List Frame := g.frames.map fun f => ⟨f.rect.x0, f.rect.y0, f.rect.x1, f.rect.y1, f.px⟩

end Gofer.Gif
