import Mathlib.Data.List.Forall2
/-
What a user of `util.JsonEncode` and `util.JsonDecode` knows: the characters of Unicode and their UTF-8, and the
values that are sent through JSON.  Nothing here speaks of JSON's grammar or of the library's code.
-/
namespace Gofer.Spec.Json

abbrev Bytes := List UInt8

/-- The code points that UTF-8 encodes: all up to 10FFFF but the surrogates. -/
def Scalar (c : Nat) : Prop := c < 0xD800 ∨ (0xE000 ≤ c ∧ c < 0x110000)

/-- UTF-8 of a code point. -/
def utf8 (c : Nat) : Bytes :=
  if c < 0x80 then [UInt8.ofNat c]
  else if c < 0x800 then [UInt8.ofNat (0xC0 + c / 64), UInt8.ofNat (0x80 + c % 64)]
  else if c < 0x10000 then
    [UInt8.ofNat (0xE0 + c / 4096), UInt8.ofNat (0x80 + c / 64 % 64), UInt8.ofNat (0x80 + c % 64)]
  else
    [UInt8.ofNat (0xF0 + c / 262144), UInt8.ofNat (0x80 + c / 4096 % 64), UInt8.ofNat (0x80 + c / 64 % 64),
      UInt8.ofNat (0x80 + c % 64)]

/-- A text: characters, one after the other. -/
inductive Text : Bytes → Prop
  | nil : Text []
  | cons (c : Nat) (s : Bytes) : Scalar c → Text s → Text (utf8 c ++ s)

/-- `t` is `s` with every byte that begins no character replaced by U+FFFD (the three bytes EF BF BD). -/
inductive Fixed : Bytes → Bytes → Prop
  | nil : Fixed [] []
  | good (c : Nat) (s t : Bytes) : Scalar c → Fixed s t → Fixed (utf8 c ++ s) (utf8 c ++ t)
  | bad (b : UInt8) (s t : Bytes) : (∀ c, Scalar c → ¬ utf8 c <+: b :: s) → Fixed s t →
      Fixed (b :: s) (0xEF :: 0xBF :: 0xBD :: t)

/-- The Go types sent through JSON here: `bool`, `int64`, `string`, `[]T`, `map[string]T`. -/
inductive Ty
  | bool
  | int
  | str
  | list (t : Ty)
  | map (t : Ty)

/-- The values of a type.  A slice or a map may be nil (`none`); a map is given by its entries in the order of their
keys, so that two equal maps are the same list. -/
@[reducible] def Val : Ty → Type
  | .bool => Bool
  | .int => Int
  | .str => Bytes
  | .list t => Option (List (Val t))
  | .map t => Option (List (Bytes × Val t))

/-- The integers fit into 64 bits and the keys of the maps are different (and in order). -/
def WF : (t : Ty) → Val t → Prop
  | .bool, _ => True
  | .int, i => -(2 : Int) ^ 63 ≤ i ∧ i < 2 ^ 63
  | .str, _ => True
  | .list t, v => ∀ l, v = some l → ∀ x ∈ l, WF t x
  | .map t, v => ∀ l, v = some l → l.Pairwise (fun a b => a.1 < b.1) ∧ ∀ e ∈ l, WF t e.2

/-- How deeply slices and maps are nested. -/
def depth : Ty → Nat
  | .bool => 0
  | .int => 0
  | .str => 0
  | .list t => depth t + 1
  | .map t => depth t + 1

/-- All strings in the value are texts. -/
def Texts : (t : Ty) → Val t → Prop
  | .bool, _ => True
  | .int, _ => True
  | .str, s => Text s
  | .list t, v => ∀ l, v = some l → ∀ x ∈ l, Texts t x
  | .map t, v => ∀ l, v = some l → ∀ e ∈ l, Text e.1 ∧ Texts t e.2

/-- `m[k] = v`. -/
def put {A : Type} (k : Bytes) (v : A) : List (Bytes × A) → List (Bytes × A)
  | [] => [(k, v)]
  | (k', v') :: l => if k < k' then (k, v) :: (k', v') :: l else if k = k' then (k, v) :: l else (k', v') :: put k v l

/-- The map filled by assigning the entries one after the other. -/
def filled {A : Type} (es : List (Bytes × A)) : List (Bytes × A) := es.foldl (fun m e => put e.1 e.2 m) []

/-- `w` is `v` with its strings repaired (`Fixed`); keys that become equal are assigned in the order they had. -/
def Repaired : (t : Ty) → Val t → Val t → Prop
  | .bool, v, w => w = v
  | .int, v, w => w = v
  | .str, v, w => Fixed v w
  | .list t, v, w =>
    match v, w with
    | none, none => True
    | some l, some l' => List.Forall₂ (Repaired t) l l'
    | _, _ => False
  | .map t, v, w =>
    match v, w with
    | none, none => True
    | some es, some es' =>
      ∃ m, List.Forall₂ (fun e e' => Fixed e.1 e'.1 ∧ Repaired t e.2 e'.2) es m ∧ es' = filled m
    | _, _ => False

end Gofer.Spec.Json
