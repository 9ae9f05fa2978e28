import Verif.Spec.Json
/-
`util.JsonEncode` and `util.JsonDecode` (/repo/util/gob.go:18-26) and what they call of Go's encoding/json (go1.23),
strconv and unicode/utf8.

Simplified: the types are those of `Spec.Json.Ty` (no structs, floats, pointers, interfaces); the decoder's state
machine (scanner.go) and the walk over the value (decode.go) are one recursive descent that gives the tree of the
document, from which the value is then taken; the scanner's errors are all `none`; memory that runs out is not modelled.
Map entries are kept in the order of keys (`Spec.Json.Val`), so the encoder's sorting of the keys (encode.go,
`mapEncoder.encode`) is the identity.
-/
namespace Gofer.Json
open Gofer.Spec.Json

/-! ## unicode/utf8 -/

/-- A continuation byte (utf8.go `locb`, `hicb`). -/
def cont (b : UInt8) : Bool := 0x80 ≤ b && b ≤ 0xBF

/-- `utf8.RuneError`. -/
def runeError : Nat := 0xFFFD

/-- `utf8.DecodeRune` and `DecodeRuneInString` (called by appendString and unquoteBytes for util/gob.go:19,24): the
rune and its width; `(RuneError, 1)` if the bytes do not begin with a rune, after the tables `first` and
`acceptRanges`. -/
def decodeRune : Bytes → Nat × Nat
  | [] => (runeError, 0)
  | b0 :: r =>
    if b0 < 0x80 then (b0.toNat, 1)
    else if b0 < 0xC2 || 0xF4 < b0 then (runeError, 1)
    else match r with
    | [] => (runeError, 1)
    | b1 :: r1 =>
      if b0 ≤ 0xDF then
        if cont b1 then (b0.toNat % 32 * 64 + b1.toNat % 64, 2) else (runeError, 1)
      else if b0 ≤ 0xEF then
        let lo : UInt8 := if b0 = 0xE0 then 0xA0 else 0x80
        let hi : UInt8 := if b0 = 0xED then 0x9F else 0xBF
        if lo ≤ b1 && b1 ≤ hi then
          match r1 with
          | [] => (runeError, 1)
          | b2 :: _ =>
            if cont b2 then (b0.toNat % 16 * 4096 + b1.toNat % 64 * 64 + b2.toNat % 64, 3) else (runeError, 1)
        else (runeError, 1)
      else
        let lo : UInt8 := if b0 = 0xF0 then 0x90 else 0x80
        let hi : UInt8 := if b0 = 0xF4 then 0x8F else 0xBF
        if lo ≤ b1 && b1 ≤ hi then
          match r1 with
          | b2 :: b3 :: _ =>
            if cont b2 && cont b3 then
              (b0.toNat % 8 * 262144 + b1.toNat % 64 * 4096 + b2.toNat % 64 * 64 + b3.toNat % 64, 4)
            else (runeError, 1)
          | _ => (runeError, 1)
        else (runeError, 1)

/-- `utf8.EncodeRune` (called by unquoteBytes for util/gob.go:24): surrogates and numbers above 10FFFF become
`RuneError`. -/
def encodeRune (c : Nat) : Bytes :=
  if c < 0x80 then [UInt8.ofNat c]
  else if c < 0x800 then [UInt8.ofNat (0xC0 + c / 64), UInt8.ofNat (0x80 + c % 64)]
  else if 0x10FFFF < c || (0xD800 ≤ c && c ≤ 0xDFFF) then [0xEF, 0xBF, 0xBD]
  else if c < 0x10000 then
    [UInt8.ofNat (0xE0 + c / 4096), UInt8.ofNat (0x80 + c / 64 % 64), UInt8.ofNat (0x80 + c % 64)]
  else
    [UInt8.ofNat (0xF0 + c / 262144), UInt8.ofNat (0x80 + c / 4096 % 64), UInt8.ofNat (0x80 + c / 64 % 64),
      UInt8.ofNat (0x80 + c % 64)]

/-! ## Encoding (util/gob.go:18-21) -/

/-- A digit of `hex = "0123456789abcdef"` (encode.go). -/
def hex (n : Nat) : UInt8 := if n < 10 then UInt8.ofNat (48 + n) else UInt8.ofNat (87 + n)

/-- `htmlSafeSet` (tables.go), for bytes below 128; json.Marshal of util/gob.go:19 escapes HTML. -/
def htmlSafe (b : UInt8) : Bool := 32 ≤ b && b < 128 && b != 34 && b != 38 && b != 60 && b != 62 && b != 92

/-- The escape of an unsafe byte below 128 (encode.go `appendString`). -/
def escape (b : UInt8) : Bytes :=
  if b = 92 ∨ b = 34 then [92, b]
  else if b = 8 then [92, 98]
  else if b = 12 then [92, 102]
  else if b = 10 then [92, 110]
  else if b = 13 then [92, 114]
  else if b = 9 then [92, 116]
  else [92, 117, 48, 48, hex (b.toNat / 16), hex (b.toNat % 16)]

/-- The loop of `appendString` (encode.go), called by json.Marshal of util/gob.go:19; the number bounds the turns. -/
def body : Nat → Bytes → Bytes
  | 0, _ => []
  | _ + 1, [] => []
  | f + 1, b :: s =>
    if b < 128 then (if htmlSafe b then [b] else escape b) ++ body f s
    else
      let c := (decodeRune (b :: s)).1
      let n := (decodeRune (b :: s)).2
      if c = runeError ∧ n = 1 then [92, 117, 102, 102, 102, 100] ++ body f s
      else if c = 0x2028 ∨ c = 0x2029 then [92, 117, 50, 48, 50, hex (c % 16)] ++ body f ((b :: s).drop n)
      else (b :: s).take n ++ body f ((b :: s).drop n)

/-- `appendString` with its quotes. -/
def quote (s : Bytes) : Bytes := 34 :: (body s.length s ++ [34])

/-- The decimal digits of a number, at most as many as given. -/
def digits : Nat → Nat → Bytes
  | 0, _ => []
  | f + 1, n => if n < 10 then [UInt8.ofNat (48 + n)] else digits f (n / 10) ++ [UInt8.ofNat (48 + n % 10)]

/-- `strconv.AppendInt(b, i, 10)`; an int64 has at most 19 digits. -/
def itoa (i : Int) : Bytes := if i < 0 then 45 :: digits 20 i.natAbs else digits 20 i.natAbs

/-- The elements with commas between them (encode.go `arrayEncoder.encode`, `mapEncoder.encode`). -/
def commas : List Bytes → Bytes
  | [] => []
  | [x] => x
  | x :: y :: l => x ++ 44 :: commas (y :: l)

/-- `JsonEncode` (util/gob.go:18-21; json.Marshal): the encoders of encode.go (boolEncoder, intEncoder,
stringEncoder, sliceEncoder, mapEncoder).  It never fails for these types. -/
def jsonEncode : (t : Ty) → Val t → Bytes
  | .bool, b => if b then [116, 114, 117, 101] else [102, 97, 108, 115, 101]
  | .int, i => itoa i
  | .str, s => quote s
  | .list t, v =>
    match v with
    | none => [110, 117, 108, 108]
    | some l => 91 :: (commas (l.map (jsonEncode t)) ++ [93])
  | .map t, v =>
    match v with
    | none => [110, 117, 108, 108]
    | some l => 123 :: (commas (l.map fun e => quote e.1 ++ 58 :: jsonEncode t e.2) ++ [125])

/-! ## Decoding (util/gob.go:23-26) -/

/-- `isSpace` (scanner.go). -/
def isSpace (b : UInt8) : Bool := b = 32 || b = 9 || b = 13 || b = 10

/-- White space before a value (scanner.go `scanSkipSpace`). -/
def skip : Bytes → Bytes
  | [] => []
  | b :: r => if isSpace b then skip r else b :: r

def isDigit (b : UInt8) : Bool := 48 ≤ b && b ≤ 57

def isHex (b : UInt8) : Bool := isDigit b || (97 ≤ b && b ≤ 102) || (65 ≤ b && b ≤ 70)

/-- The bytes up to the closing quote (scanner.go `stateInString`, `stateInStringEsc`, `stateInStringEscU…`): the
body of the string and what follows the quote. -/
def scanStr : Bytes → Option (Bytes × Bytes)
  | [] => none
  | c :: r =>
    if c = 34 then some ([], r)
    else if c = 92 then
      match r with
      | [] => none
      | e :: r =>
        if e = 98 ∨ e = 102 ∨ e = 110 ∨ e = 114 ∨ e = 116 ∨ e = 92 ∨ e = 47 ∨ e = 34 then
          (scanStr r).map fun p => (c :: e :: p.1, p.2)
        else if e = 117 then
          match r with
          | h1 :: h2 :: h3 :: h4 :: r =>
            if isHex h1 && isHex h2 && isHex h3 && isHex h4 then
              (scanStr r).map fun p => (c :: e :: h1 :: h2 :: h3 :: h4 :: p.1, p.2)
            else none
          | _ => none
        else none
    else if c < 32 then none
    else (scanStr r).map fun p => (c :: p.1, p.2)

/-- The longest run of digits, and the rest. -/
def span : Bytes → Bytes × Bytes
  | [] => ([], [])
  | b :: r => if isDigit b then (b :: (span r).1, (span r).2) else ([], b :: r)

/-- The sign, if there is one (scanner.go `stateBeginValue`, `stateNeg`). -/
def minus : Bytes → Bytes × Bytes
  | [] => ([], [])
  | b :: r => if b = 45 then ([45], r) else ([], b :: r)

/-- The digits before the point: a zero alone, or digits (scanner.go `state0`, `state1`). -/
def whole : Bytes → Option (Bytes × Bytes)
  | [] => none
  | b :: r => if b = 48 then some ([48], r) else if isDigit b then some (b :: (span r).1, (span r).2) else none

/-- At least one digit (scanner.go `stateDot`, `stateESign`). -/
def some1 (r : Bytes) : Option (Bytes × Bytes) := if (span r).1 = [] then none else some (span r)

/-- The fraction (scanner.go `stateDot`, `stateDot0`). -/
def fraction : Bytes → Option (Bytes × Bytes)
  | [] => some ([], [])
  | b :: r => if b = 46 then (some1 r).map fun p => (46 :: p.1, p.2) else some ([], b :: r)

/-- The exponent (scanner.go `stateE`, `stateESign`, `stateE0`). -/
def exponent : Bytes → Option (Bytes × Bytes)
  | [] => some ([], [])
  | b :: r =>
    if b = 101 ∨ b = 69 then
      match r with
      | [] => none
      | g :: r' =>
        if g = 43 ∨ g = 45 then (some1 r').map fun p => (b :: g :: p.1, p.2)
        else (some1 r).map fun p => (b :: p.1, p.2)
    else some ([], b :: r)

/-- A number: its text and what follows. -/
def number (bs : Bytes) : Option (Bytes × Bytes) :=
  (whole (minus bs).2).bind fun w => (fraction w.2).bind fun x => (exponent x.2).map fun e =>
    ((minus bs).1 ++ w.1 ++ x.1 ++ e.1, e.2)

/-- What follows the given letters, if the text begins with them (scanner.go `stateT`, `stateF`, `stateN`, …). -/
def word (p r : Bytes) : Option Bytes := if p.isPrefixOf r then some (r.drop p.length) else none

/-- The tree of a document: the text of numbers and strings as it stands there. -/
inductive Tree
  | null
  | bool (b : Bool)
  | num (lit : Bytes)
  | str (body : Bytes)
  | arr (l : List Tree)
  | obj (l : List (Bytes × Tree))

/-- `maxNestingDepth` (scanner.go). -/
def maxDepth : Nat := 10000

mutual
/-- A value at the given depth (scanner.go `stateBeginValue`, `stateBeginStringOrEmpty`, `stateBeginValueOrEmpty`):
the tree and what follows.  The first number bounds the calls; `jsonDecode` gives two for every byte, which is
enough. -/
def value : Nat → Nat → Bytes → Option (Tree × Bytes)
  | 0, _, _ => none
  | f + 1, d, bs =>
    match skip bs with
    | [] => none
    | b :: r =>
      if b = 34 then (scanStr r).map fun p => (.str p.1, p.2)
      else if b = 91 then
        if maxDepth ≤ d then none
        else if (skip r).head? = some 93 then some (.arr [], (skip r).tail)
        else (elems f (d + 1) r).map fun p => (.arr p.1, p.2)
      else if b = 123 then
        if maxDepth ≤ d then none
        else if (skip r).head? = some 125 then some (.obj [], (skip r).tail)
        else (members f (d + 1) r).map fun p => (.obj p.1, p.2)
      else if b = 116 then (word [114, 117, 101] r).map fun r => (.bool true, r)
      else if b = 102 then (word [97, 108, 115, 101] r).map fun r => (.bool false, r)
      else if b = 110 then (word [117, 108, 108] r).map fun r => (.null, r)
      else (number (b :: r)).map fun p => (.num p.1, p.2)

/-- The elements of an array, to its bracket (scanner.go `stateEndValue`, `parseArrayValue`). -/
def elems : Nat → Nat → Bytes → Option (List Tree × Bytes)
  | 0, _, _ => none
  | f + 1, d, bs =>
    (value f d bs).bind fun p =>
      match skip p.2 with
      | [] => none
      | b :: r =>
        if b = 44 then (elems f d r).map fun q => (p.1 :: q.1, q.2)
        else if b = 93 then some ([p.1], r)
        else none

/-- The members of an object, to its brace (scanner.go `stateBeginString`, `parseObjectKey`, `parseObjectValue`). -/
def members : Nat → Nat → Bytes → Option (List (Bytes × Tree) × Bytes)
  | 0, _, _ => none
  | f + 1, d, bs =>
    match skip bs with
    | [] => none
    | b :: r =>
      if b = 34 then
        (scanStr r).bind fun k =>
          match skip k.2 with
          | [] => none
          | c :: r =>
            if c = 58 then
              (value f d r).bind fun p =>
                match skip p.2 with
                | [] => none
                | c :: r =>
                  if c = 44 then (members f d r).map fun q => ((k.1, p.1) :: q.1, q.2)
                  else if c = 125 then some ([(k.1, p.1)], r)
                  else none
            else none
      else none
end

/-- The value of a hexadecimal digit. -/
def unhex (b : UInt8) : Nat :=
  if b ≤ 57 then b.toNat - 48 else if b ≤ 70 then b.toNat - 55 else b.toNat - 87

/-- `getu4` (decode.go), after the `\u`. -/
def getu4 : Bytes → Option Nat
  | h1 :: h2 :: h3 :: h4 :: _ =>
    if isHex h1 && isHex h2 && isHex h3 && isHex h4 then
      some (unhex h1 * 4096 + unhex h2 * 256 + unhex h3 * 16 + unhex h4)
    else none
  | _ => none

/-- `getu4` with its `\u`; `none` for the -1 of the code. -/
def getu (s : Bytes) : Option Nat := if [92, 117].isPrefixOf s then getu4 (s.drop 2) else none

/-- The loop of `unquoteBytes` (decode.go), called by json.Unmarshal of util/gob.go:24; its shortcut for strings
without escapes and faulty bytes gives the same and is left out. -/
def unquote : Nat → Bytes → Option Bytes
  | _, [] => some []
  | 0, _ :: _ => none
  | f + 1, c :: s =>
    if c = 92 then
      match s with
      | [] => none
      | e :: r =>
        if e = 34 ∨ e = 92 ∨ e = 47 ∨ e = 39 then (unquote f r).map (e :: ·)
        else if e = 98 then (unquote f r).map (8 :: ·)
        else if e = 102 then (unquote f r).map (12 :: ·)
        else if e = 110 then (unquote f r).map (10 :: ·)
        else if e = 114 then (unquote f r).map (13 :: ·)
        else if e = 116 then (unquote f r).map (9 :: ·)
        else if e = 117 then
          (getu4 r).bind fun rr =>
            if 0xD800 ≤ rr ∧ rr < 0xE000 then
              match getu (r.drop 4) with
              | some lo =>
                if rr < 0xDC00 ∧ 0xDC00 ≤ lo ∧ lo < 0xE000 then
                  (unquote f (r.drop 10)).map (encodeRune (0x10000 + (rr - 0xD800) * 1024 + (lo - 0xDC00)) ++ ·)
                else (unquote f (r.drop 4)).map (encodeRune runeError ++ ·)
              | none => (unquote f (r.drop 4)).map (encodeRune runeError ++ ·)
            else (unquote f (r.drop 4)).map (encodeRune rr ++ ·)
        else none
    else if c = 34 ∨ c < 32 then none
    else if c < 128 then (unquote f s).map (c :: ·)
    else
      (unquote f ((c :: s).drop (decodeRune (c :: s)).2)).map (encodeRune (decodeRune (c :: s)).1 ++ ·)

/-- The digits' number. -/
def parseNat (ds : Bytes) : Nat := ds.foldl (fun n b => n * 10 + (b.toNat - 48)) 0

/-- `strconv.ParseInt(lit, 10, 64)` of a JSON number (decode.go `literalStore`): `none` for a fraction, an exponent,
or a number out of range. -/
def parseInt (lit : Bytes) : Option Int :=
  let ds := (minus lit).2
  if ds.all isDigit then
    let i : Int := if (minus lit).1 = [45] then -(parseNat ds : Int) else parseNat ds
    if -(2 : Int) ^ 63 ≤ i ∧ i < 2 ^ 63 then some i else none
  else none

/-- The values of a list, or `none` if one of them has none. -/
def all {A B : Type} (f : A → Option B) : List A → Option (List B)
  | [] => some []
  | a :: l => (f a).bind fun b => (all f l).map (b :: ·)

/-- The value of a tree (decode.go `literalStore`, `array`, `object`) stored into a zero value of the type: null
leaves the zero value. -/
def get : (t : Ty) → Tree → Option (Val t)
  | .bool, .bool b => some b
  | .bool, .null => some false
  | .int, .num lit => parseInt lit
  | .int, .null => some (0 : Int)
  | .str, .str s => unquote s.length s
  | .str, .null => some ([] : Bytes)
  | .list t, .arr l => (all (get t) l).map some
  | .list _, .null => some none
  | .map t, .obj l =>
    (all (fun (e : Bytes × Tree) => (unquote e.1.length e.1).bind fun k => (get t e.2).map fun v => (k, v)) l).map
      fun es => some (filled es)
  | .map _, .null => some none
  | _, _ => none

/-- `JsonDecode[T]` (util/gob.go:23-26; json.Unmarshal); `none` is an error. -/
def jsonDecode (t : Ty) (bs : Bytes) : Option (Val t) :=
  (value (2 * bs.length + 2) 0 bs).bind fun p => if skip p.2 = [] then get t p.1 else none

end Gofer.Json
