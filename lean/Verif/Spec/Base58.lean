/-!
# Base58, specification

The Bitcoin base-58 alphabet and positional notation, independent of the Go code.
-/
namespace Gofer.Spec.Base58

/-- ASCII letters and digits. -/
def isAlnum (c : Nat) : Bool :=
  (48 ≤ c && c ≤ 57) || (65 ≤ c && c ≤ 90) || (97 ≤ c && c ≤ 122)

/-- The alphabet: the ASCII letters and digits in code order, without `0`, `O`, `I` and `l`. -/
def alphabet : List UInt8 :=
  ((List.range 128).filter fun c => isAlnum c && c != 48 && c != 79 && c != 73 && c != 108).map
    Nat.toUInt8

/-- The value of a big-endian base-58 digit list. -/
def value (ds : List Nat) : Nat := ds.foldl (fun a d => a * 58 + d) 0

/-- `bs` is the text of the digits `ds`: same length, and each byte is the alphabet symbol of its digit. -/
def IsText (ds : List Nat) (bs : List UInt8) : Prop :=
  ds.map (fun d => alphabet[d]?) = bs.map some

/-- Shorter, or equally long and byte-lexicographically smaller. -/
def ShortLexLt (a b : List UInt8) : Prop :=
  a.length < b.length ∨ (a.length = b.length ∧ List.Lex (· < ·) a b)

end Gofer.Spec.Base58
