import Verif.Spec.Picture
/-!
# What one expects of a picture that was made smaller, larger or blurred
-/
namespace Gofer.Spec.Picture

/-- The colours of a picture: those of its pixels. -/
def Pic.Has {α : Type} (p : Pic α) (c : α) : Prop := ∃ x y, 0 ≤ x ∧ x < p.w ∧ 0 ≤ y ∧ y < p.h ∧ p.px x y = c

/-- Red, green, blue. -/
inductive Channel where
  | red
  | green
  | blue
deriving DecidableEq

/-- How much of it there is in a colour. -/
def Colour.of (c : Colour) : Channel → Nat
  | .red => c.r.toNat
  | .green => c.g.toNat
  | .blue => c.b.toNat

/-- Where the picture can be seen (opacity above 0), this much of the channel: from `lo` to `hi`. -/
def Pic.Shades (p : Pic Colour) (k : Channel) (lo hi : Nat) : Prop := ∀ c, p.Has c → c.a ≠ 0 → lo ≤ c.of k ∧ c.of k ≤ hi

/-- All pixels have an opacity from `lo` to `hi`. -/
def Pic.Opacity (p : Pic Colour) (lo hi : Nat) : Prop := ∀ c, p.Has c → lo ≤ c.a.toNat ∧ c.a.toNat ≤ hi

end Gofer.Spec.Picture
