import Verif.Spec.Picture
/-!
# Animations: what a viewer sees

A screen of `w × h` pixels, on which frames are drawn one after another. Frames stay when the next one comes (disposal "leave").
-/
namespace Gofer.Spec.Anim
open Gofer.Spec.Picture (Colour)

/-- A frame covers the columns `x0 ≤ x < x1` and the rows `y0 ≤ y < y1` of the screen. -/
structure Frame where
  x0 : Int
  y0 : Int
  x1 : Int
  y1 : Int
  px : Int → Int → Colour

def Frame.covers (f : Frame) (x y : Int) : Bool := decide (f.x0 ≤ x ∧ x < f.x1 ∧ f.y0 ≤ y ∧ y < f.y1)

/-- A frame drawn over what was there: what it does not cover, and where it is transparent, stays. -/
def Frame.over (f : Frame) (below : Int → Int → Colour) (x y : Int) : Colour :=
  if f.covers x y ∧ (f.px x y).a ≠ 0 then f.px x y else below x y

/-- What is seen after some frames, on an empty screen. -/
def seen (frames : List Frame) : Int → Int → Colour := frames.foldl (fun below f => f.over below) (fun _ _ => ⟨0, 0, 0, 0⟩)

end Gofer.Spec.Anim
