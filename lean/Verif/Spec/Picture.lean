/-!
# Pictures: turning, mirroring, recolouring
-/
namespace Gofer.Spec.Picture

/-- A picture with `w` columns and `h` rows; `px x y` is the colour in column `x` from the left and row `y` from the top. -/
structure Pic (α : Type) where
  w : Int
  h : Int
  px : Int → Int → α

variable {α : Type}

/-- The same size and the same colours. -/
def Pic.Same (p q : Pic α) : Prop := p.w = q.w ∧ p.h = q.h ∧ ∀ x y, 0 ≤ x → x < p.w → 0 ≤ y → y < p.h → p.px x y = q.px x y

/-- `f p` if wanted. -/
def when (b : Bool) (f : Pic α → Pic α) (p : Pic α) : Pic α := if b then f p else p

/-- Left and right exchanged. -/
def Pic.mirror (p : Pic α) : Pic α := ⟨p.w, p.h, fun x y => p.px (p.w - 1 - x) y⟩

/-- Top and bottom exchanged. -/
def Pic.topple (p : Pic α) : Pic α := ⟨p.w, p.h, fun x y => p.px x (p.h - 1 - y)⟩

/-- A quarter turn to the left: the right edge comes to the top. -/
def Pic.turn (p : Pic α) : Pic α := ⟨p.h, p.w, fun x y => p.px (p.w - 1 - y) x⟩

/-- `n` quarter turns to the left. -/
def Pic.turns : Nat → Pic α → Pic α
  | 0, p => p
  | n + 1, p => (Pic.turns n p).turn

/-- Every colour changed by `f`. -/
def Pic.map (f : α → α) (p : Pic α) : Pic α := ⟨p.w, p.h, fun x y => f (p.px x y)⟩

/-- A colour: red, green, blue, opacity. -/
structure Colour where
  r : UInt8
  g : UInt8
  b : UInt8
  a : UInt8
deriving DecidableEq

/-- The negative. -/
def Colour.negative (c : Colour) : Colour := ⟨255 - c.r, 255 - c.g, 255 - c.b, c.a⟩

/-- `d` is a grey of the luminance of `c` (0.299 red, 0.587 green, 0.114 blue, as in ITU-R BT.601), rounded. -/
def GreyOf (c d : Colour) : Prop :=
  d.g = d.r ∧ d.b = d.r ∧ d.a = c.a ∧
    2 * (299 * c.r.toNat + 587 * c.g.toNat + 114 * c.b.toNat) ≤ 2 * 1000 * d.r.toNat + 1000 ∧
    2 * 1000 * d.r.toNat ≤ 2 * (299 * c.r.toNat + 587 * c.g.toNat + 114 * c.b.toNat) + 1000

end Gofer.Spec.Picture
