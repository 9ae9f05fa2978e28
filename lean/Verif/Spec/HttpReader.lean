/-!
# A reader of HTTP/1.1 requests (RFC 9112)

What a server makes of the bytes of a connection: a request line, header fields up to an empty line, and a body whose end is told by
`Content-Length`. A request with `Transfer-Encoding`, or with more than one `Content-Length`, is not read: no such requests are claimed to
be sent. `lf` tells whether the server takes a line feed alone for the end of a line, too (RFC 9112, 2.2).
-/
namespace Gofer.Spec.HttpReader

abbrev Str := List UInt8

/-- The bytes before the end of the line, and those after. -/
def line (lf : Bool) : Str → Option (Str × Str)
  | [] => none
  | b :: r =>
    if b = 13 ∧ r.head? = some 10 then some ([], r.tail)
    else if lf = true ∧ b = 10 then some ([], r)
    else (line lf r).map fun x => (b :: x.1, x.2)

/-- Spaces and tabs. -/
def blank (b : UInt8) : Bool := b == 32 || b == 9

/-- A value without blanks at its ends. -/
def strip (v : Str) : Str := ((v.dropWhile blank).reverse.dropWhile blank).reverse

/-- Bytes that names are made of (RFC 9110, 5.6.2). -/
def nameByte (b : UInt8) : Bool :=
  (48 ≤ b && b ≤ 57) || (65 ≤ b && b ≤ 90) || (97 ≤ b && b ≤ 122) ||
    [33, 35, 36, 37, 38, 39, 42, 43, 45, 46, 94, 95, 96, 124, 126].contains b

/-- A header field: a name, a colon, a value. -/
def field (l : Str) : Option (Str × Str) :=
  let k := l.takeWhile (fun b => b != 58)
  if k ≠ [] ∧ k.all nameByte = true ∧ k.length < l.length then some (k, strip (l.drop (k.length + 1))) else none

/-- Header fields up to the empty line; at most `n` lines. -/
def fields (lf : Bool) : Nat → Str → Option (List (Str × Str) × Str)
  | 0, _ => none
  | n + 1, s =>
    match line lf s with
    | none => none
    | some ([], r) => some ([], r)
    | some (l, r) =>
      match field l, fields lf n r with
      | some f, some (fs, r') => some (f :: fs, r')
      | _, _ => none

/-- Letters in lower case. -/
def low (b : UInt8) : UInt8 := if 65 ≤ b && b ≤ 90 then b + 32 else b

/-- The values of the fields with this name; names are compared without regard to case. -/
def valuesOf (name : Str) (fs : List (Str × Str)) : List Str :=
  (fs.filter fun f => f.1.map low == name.map low).map (·.2)

/-- A decimal number. -/
def decimal (v : Str) : Option Nat :=
  if v ≠ [] ∧ v.all (fun b => 48 ≤ b && b ≤ 57) = true then some (v.foldl (fun n b => 10 * n + (b.toNat - 48)) 0) else none

/-- `"Transfer-Encoding"` -/
def transferEncoding : Str := [84, 114, 97, 110, 115, 102, 101, 114, 45, 69, 110, 99, 111, 100, 105, 110, 103]

/-- `"Content-Length"` -/
def contentLength : Str := [67, 111, 110, 116, 101, 110, 116, 45, 76, 101, 110, 103, 116, 104]

/-- How long the body is. -/
def bodyLength (fs : List (Str × Str)) : Option Nat :=
  if valuesOf transferEncoding fs ≠ [] then none
  else
    match valuesOf contentLength fs with
    | [] => some 0
    | [v] => decimal v
    | _ => none

/-- A request. -/
structure Request where
  first : Str
  fields : List (Str × Str)
  body : Str
deriving DecidableEq

/-- Reads one request; the second part is what follows it. -/
def readRequest (lf : Bool) (s : Str) : Option (Request × Str) :=
  match line lf s with
  | none => none
  | some (first, r) =>
    match fields lf (r.length + 1) r with
    | none => none
    | some (fs, r') =>
      match bodyLength fs with
      | none => none
      | some n => if n ≤ r'.length then some (⟨first, fs, r'.take n⟩, r'.drop n) else none

end Gofer.Spec.HttpReader
