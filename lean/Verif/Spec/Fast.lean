import Verif.Model.Fast
/-!
# Which programs use `StringToSlice` with care

Where a slice comes from, told from the text of the program alone: from `StringToSlice` as it is (`whole`), cut from such a slice (`part`), or neither (`own`).
-/
namespace Gofer.Fast

inductive Origin where
  | own
  | whole
  | part
deriving DecidableEq

/-- The rest of a program is careful, given the origins of the slices so far: it never writes to slices from `StringToSlice` nor to parts of them and appends nothing to
such parts. It may append to the slice as it is: that makes a copy. -/
def Careful : List Origin → List Op → Prop
  | _, [] => True
  | o, .view _ :: r => Careful (o ++ [.whole]) r
  | o, .copy _ :: r => Careful (o ++ [.own]) r
  | o, .text _ :: r => Careful o r
  | o, .cut _ _ _ :: r => Careful o r
  | o, .join _ _ :: r => Careful o r
  | o, .slice b _ _ :: r => Careful (o ++ [if o.getD b .own = .own then .own else .part]) r
  | o, .append b bs _ :: r =>
    match o.getD b .own with
    | .own => Careful (o ++ [.own]) r
    | .whole => Careful (o ++ [if bs = [] then .whole else .own]) r
    | .part => False
  | o, .put b _ _ :: r => o.getD b .own = .own ∧ Careful o r

/-- The text of string number `i`. -/
def St.textOf (s : St) (i : Nat) : List UInt8 := (s.str i).bytes s.heap

end Gofer.Fast
