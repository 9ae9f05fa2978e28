import Verif.Spec.Snappy
/-!
# Model of `SnappyEncode`, `SnappyDecode` (util/compress.go:76-83) and `Snappy`, `UnSnappy` (compress/compress.go:87-94)

The work is done by a library, `github.com/golang/snappy` (v1.0) in package util, whose published source is followed here (it is not in /repo): `decode.go`, `decode_other.go`, `encode.go`.
Package compress uses `github.com/klauspost/compress/snappy` (v1.18.0, go.mod), which hands over to its package `s2`: there a copy of one offset byte with offset 0 repeats the last
offset, with a length of its own (`turn2`); such blocks are rejected by `golang/snappy`. The last offset before any copy is a parameter, `first`. `int` is 64 bits wide. The output slice is modelled by what has been put into it; that the announced
length is allocated at once is `announced`.
-/
namespace Gofer.Snappy
open Gofer.Spec.Snappy (Bytes)

/-- The loop of `binary.Uvarint` (library encoding/binary): `i` bytes read, giving `x`; more than 64 bits are an error. -/
def uvarintLoop : Bytes → Nat → Nat → Option (Nat × Bytes)
  | [], _, _ => none
  | b :: r, i, x =>
    if i = 10 then none
    else if b.toNat < 128 then
      if i = 9 ∧ 1 < b.toNat then none else some (x + b.toNat * 128 ^ i, r)
    else uvarintLoop r (i + 1) (x + (b.toNat - 128) * 128 ^ i)

/-- `decodedLen` (library, decode.go): the announced length, and the rest. -/
def decodedLen (src : Bytes) : Option (Nat × Bytes) :=
  match uvarintLoop src 0 0 with
  | none => none
  | some (v, r) => if v > 0xffffffff then none else some (v, r)

/-- The number in the first `k` bytes, low ones first, and the rest. -/
def number : Nat → Bytes → Option (Nat × Bytes)
  | 0, r => some (0, r)
  | _ + 1, [] => none
  | k + 1, b :: r => (number k r).map fun (n, r) => (b.toNat + 256 * n, r)

/-- The copy of `decode_other.go`: forwards, byte by byte, so that it may overlap what it writes. -/
def copyBack (offset : Nat) : Nat → Bytes → Bytes
  | 0, dst => dst
  | n + 1, dst => copyBack offset n (dst ++ [dst.getD (dst.length - offset) 0])

/-- A copy element in the loop of `decode` (library, decode_other.go), with its checks. -/
def doCopy (dLen : Nat) (dst : Bytes) (offset length : Nat) : Option Bytes :=
  if offset = 0 ∨ dst.length < offset ∨ length > dLen - dst.length then none else some (copyBack offset length dst)

/-- A literal in the loop of `decode`: `x` is the length less one. -/
def doLit (dLen : Nat) (dst : Bytes) (x : Nat) (src : Bytes) : Option (Bytes × Bytes) :=
  if x + 1 > dLen - dst.length ∨ x + 1 > src.length then none else some (dst ++ src.take (x + 1), src.drop (x + 1))

/-- One turn of the loop of `decode`, from the tag byte on: the output and the rest of the input. -/
def turn (dLen : Nat) (dst : Bytes) (tag : UInt8) (src : Bytes) : Option (Bytes × Bytes) :=
  match tag.toNat % 4 with
  | 0 =>
    let x := tag.toNat / 4
    if x < 60 then doLit dLen dst x src
    else (number (x - 59) src).bind fun (x, src) => doLit dLen dst x src
  | 1 => (number 1 src).bind fun (n, src) => (doCopy dLen dst (tag.toNat / 32 * 256 + n) (4 + tag.toNat / 4 % 8)).map fun dst => (dst, src)
  | 2 => (number 2 src).bind fun (n, src) => (doCopy dLen dst n (1 + tag.toNat / 4)).map fun dst => (dst, src)
  | _ => (number 4 src).bind fun (n, src) => (doCopy dLen dst n (1 + tag.toNat / 4)).map fun dst => (dst, src)

/-- The loop of `decode`; the first argument bounds the turns (each takes at least one byte). -/
def loop (dLen : Nat) : Nat → Bytes → Bytes → Option Bytes
  | _, dst, [] => if dst.length = dLen then some dst else none
  | 0, _, _ :: _ => none
  | fuel + 1, dst, tag :: src =>
    match turn dLen dst tag src with
    | none => none
    | some (dst, src) => loop dLen fuel dst src

/-- `snappy.Decode(nil, src)` (library, decode.go); `none` is an error. -/
def decode (src : Bytes) : Option Bytes :=
  match decodedLen src with
  | none => none
  | some (dLen, src) => loop dLen src.length [] src

/-- The bytes that `snappy.Decode` allocates for the output before it looks at the elements. -/
def announced (src : Bytes) : Nat := ((decodedLen src).map Prod.fst).getD 0

/-- The length of a repeat (library klauspost/compress/s2, decode_other.go), from the three bits in the tag, and the rest. -/
def repeatLen (x : Nat) (src : Bytes) : Option (Nat × Bytes) :=
  if x < 5 then some (x + 4, src)
  else if x = 5 then (number 1 src).map fun (n, src) => (n + 4 + 4, src)
  else if x = 6 then (number 2 src).map fun (n, src) => (n + 256 + 4, src)
  else (number 3 src).map fun (n, src) => (n + 65536 + 4, src)

/-- One turn of the loop of `s2Decode` (library klauspost/compress/s2, decode_other.go): the output, the last offset and the rest. -/
def turn2 (dLen : Nat) (dst : Bytes) (last : Nat) (tag : UInt8) (src : Bytes) : Option (Bytes × Nat × Bytes) :=
  match tag.toNat % 4 with
  | 0 =>
    let x := tag.toNat / 4
    if x < 60 then (doLit dLen dst x src).map fun (dst, src) => (dst, last, src)
    else (number (x - 59) src).bind fun (x, src) => (doLit dLen dst x src).map fun (dst, src) => (dst, last, src)
  | 1 => (number 1 src).bind fun (n, src) =>
    if tag.toNat / 32 * 256 + n = 0 then
      (repeatLen (tag.toNat / 4 % 8) src).bind fun (len, src) => (doCopy dLen dst last len).map fun dst => (dst, last, src)
    else (doCopy dLen dst (tag.toNat / 32 * 256 + n) (4 + tag.toNat / 4 % 8)).map fun dst => (dst, tag.toNat / 32 * 256 + n, src)
  | 2 => (number 2 src).bind fun (n, src) => (doCopy dLen dst n (1 + tag.toNat / 4)).map fun dst => (dst, n, src)
  | _ => (number 4 src).bind fun (n, src) => (doCopy dLen dst n (1 + tag.toNat / 4)).map fun dst => (dst, n, src)

/-- The loop of `s2Decode`. -/
def loop2 (dLen : Nat) : Nat → Bytes → Nat → Bytes → Option Bytes
  | _, dst, _, [] => if dst.length = dLen then some dst else none
  | 0, _, _, _ :: _ => none
  | fuel + 1, dst, last, tag :: src =>
    match turn2 dLen dst last tag src with
    | none => none
    | some (dst, last, src) => loop2 dLen fuel dst last src

/-- `s2.Decode(nil, src)` (library klauspost/compress/s2, decode.go). -/
def decode2 (first : Nat) (src : Bytes) : Option Bytes :=
  match decodedLen src with
  | none => none
  | some (dLen, src) => loop2 dLen src.length [] first src

/-- `compress.UnSnappy` (compress/compress.go:91-94): the bytes and whether there is an error. -/
def unSnappy (first : Nat) (bs : Bytes) : Bytes × Bool :=
  match decode2 first bs with
  | some r => (r, false)
  | none => ([], true)

/-- `util.SnappyDecode` (util/compress.go:80-83): the error is dropped; nil and empty are the same to `len` and to `for`. -/
def snappyDecode (bs : Bytes) : Bytes := (decode bs).getD []

/-- `emitLiteral` (library, encode_other.go) for at most 60 bytes. -/
def emitLiteral (lit : Bytes) : Bytes := (4 * (lit.length - 1)).toUInt8 :: lit

/-- `snappy.Encode(nil, src)` (library, encode.go) for less than `minNonLiteralBlockSize` = 17 bytes, as called by `util.SnappyEncode` (util/compress.go:76-78); the bytes
that `compress.Snappy` (compress/compress.go:87-89) makes from so few are the same. -/
def encodeSmall (src : Bytes) : Bytes := src.length.toUInt8 :: if src = [] then [] else emitLiteral src

end Gofer.Snappy
