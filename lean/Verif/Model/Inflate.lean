import Verif.Spec.Deflate
import Verif.Model.Compress
/-!
# Reading compressed data: `compress/flate`, `compress/zlib`, `compress/gzip`

The readers under `UnZlib` and `UnGzip` (/repo/compress/compress.go:45-58 and 72-85, /repo/util/compress.go:33-42 and 51-67), from knowledge of the published source of
go1.23 (flate/inflate.go, zlib/reader.go, gzip/gunzip.go), which is not in the sandbox.

Simplified: the input is the list of its bits, from which whole and half bytes are taken, so that `f.b`, `f.nb` and `moreBits` become a list; the tables `chunks` and `links`
of a `huffmanDecoder` become a search for the code with which the bits begin; the window of 32 KiB (`dictDecoder`) becomes all data put out so far, which is the same since no
distance is larger; of errors it is only said that there is one. What has been put out before an error is delivered, as `decompressor.Read` does by `readFlush`.
-/
namespace Gofer.Inflate
open Gofer.Spec.Deflate (Bits Bytes low high bits)

/-! ## Bits -/

/-- The next `n` bits as a number (`for f.nb < n { moreBits }`, `f.b & (1<<n-1)`, `f.b >>= n`). -/
def take (n : Nat) (b : Bits) : Option (Nat × Bits) :=
  if b.length < n then none else some (low (b.take n), b.drop n)

/-- The next `n` bytes (`io.ReadFull`); the bits are at a byte boundary. -/
def takeBytes : Nat → Bits → Option (Bytes × Bits)
  | 0, b => some ([], b)
  | n + 1, b =>
    match take 8 b with
    | none => none
    | some (x, r) =>
      match takeBytes n r with
      | none => none
      | some (l, r) => some (UInt8.ofNat x :: l, r)

/-! ## Huffman codes (inflate.go `huffmanDecoder`) -/

/-- A `huffmanDecoder`: the smallest number of bits to read, and the codes with length, number and symbol. -/
structure Huff where
  min : Nat
  codes : List (Nat × Nat × Nat)
deriving DecidableEq

/-- `count[n]`. -/
def count (lens : List Nat) (n : Nat) : Nat := if n = 0 then 0 else lens.count n

/-- `nextcode[i]`: the loop `code <<= 1; nextcode[i] = code; code += count[i]`. -/
def nextcode (lens : List Nat) : Nat → Nat
  | 0 => 0
  | i + 1 => (nextcode lens i + count lens i) * 2

/-- The loop over the symbols: `code := nextcode[n]; nextcode[n]++`. -/
def assign (next : Nat → Nat) (s : Nat) : List Nat → List (Nat × Nat × Nat)
  | [] => []
  | n :: l =>
    if n = 0 then assign next (s + 1) l
    else (n, next n, s) :: assign (fun k => if k = n then next k + 1 else next k) (s + 1) l

/-- `huffmanDecoder.init`. -/
def init (lens : List Nat) : Option Huff :=
  let used := lens.filter fun n => n ≠ 0
  match used with
  | [] => some ⟨0, []⟩
  | a :: l =>
    let min := l.foldl (fun m n => if n < m then n else m) a
    let max := l.foldl (fun m n => if n > m then n else m) a
    let code := nextcode lens max + count lens max
    if code ≠ 2 ^ max ∧ ¬ (code = 1 ∧ max = 1) then none else some ⟨min, assign (nextcode lens) 0 lens⟩

/-- `huffSym`. -/
def huffSym (h : Huff) (b : Bits) : Option (Nat × Bits) :=
  if b.length < h.min then none
  else
    match h.codes.find? (fun c => c.1 ≤ b.length ∧ high (b.take c.1) = c.2.1) with
    | none => none
    | some c => some (c.2.2, b.drop c.1)

/-! ## Blocks -/

/-- The length for a symbol above 256 and its number of extra bits (`huffmanBlock`); none for 286 and 287. -/
def lenOf (v : Nat) : Option (Nat × Nat) :=
  if v < 265 then some (v - (257 - 3), 0)
  else if v < 269 then some (v * 2 - (265 * 2 - 11), 1)
  else if v < 273 then some (v * 4 - (269 * 4 - 19), 2)
  else if v < 277 then some (v * 8 - (273 * 8 - 35), 3)
  else if v < 281 then some (v * 16 - (277 * 16 - 67), 4)
  else if v < 285 then some (v * 32 - (281 * 32 - 131), 5)
  else if v < 286 then some (258, 0)
  else none

/-- The distance for a symbol and its extra bits (`huffmanBlock`). -/
def distOf (w : Nat) (b : Bits) : Option (Nat × Bits) :=
  if w < 4 then some (w + 1, b)
  else if w < 30 then
    let nb := (w - 2) / 2
    match take nb b with
    | none => none
    | some (x, r) => some (2 ^ (nb + 1) + 1 + (w % 2 * 2 ^ nb + x), r)
  else none

/-- `dictDecoder.writeCopy`: byte by byte, so that what is copied may reach into what is being written. -/
def copy (o : Bytes) (d : Nat) : Nat → Bytes
  | 0 => o
  | n + 1 => copy (o ++ [(o[o.length - d]?).getD 0]) d n

/-- The symbol for the distance: with the fixed codes `f.hd` is nil and five bits are taken, else `huffSym`. -/
def distSym (hd : Option Huff) (b : Bits) : Option (Nat × Bits) :=
  match hd with
  | none => if b.length < 5 then none else some (high (b.take 5), b.drop 5)
  | some h => huffSym h b

/-- `huffmanBlock`: what has been put out, and the bits after the block, or none after an error. -/
def body (hl : Huff) (hd : Option Huff) : Nat → Bytes → Bits → Bytes × Option Bits
  | 0, o, _ => (o, none)
  | fuel + 1, o, b =>
    match huffSym hl b with
    | none => (o, none)
    | some (v, b) =>
      if v < 256 then body hl hd fuel (o ++ [UInt8.ofNat v]) b
      else if v = 256 then (o, some b)
      else
        match lenOf v with
        | none => (o, none)
        | some (n, x) =>
          match take x b with
          | none => (o, none)
          | some (y, b) =>
            match distSym hd b with
            | none => (o, none)
            | some (w, b) =>
              match distOf w b with
              | none => (o, none)
              | some (d, b) => if d > o.length then (o, none) else body hl hd fuel (copy o d (n + y)) b

/-- `fixedHuffmanDecoderInit`. -/
def fixedHuff : Option Huff := init (List.replicate 144 8 ++ List.replicate 112 9 ++ List.replicate 24 7 ++ List.replicate 8 8)

def codeOrder : List Nat := [16, 17, 18, 0, 8, 7, 9, 6, 10, 5, 11, 4, 12, 3, 13, 2, 14, 1, 15]

/-- The loop over `nclen`: three bits each. -/
def clens : Nat → Bits → Option (List Nat × Bits)
  | 0, b => some ([], b)
  | n + 1, b =>
    match take 3 b with
    | none => none
    | some (x, r) =>
      match clens n r with
      | none => none
      | some (l, r) => some (x :: l, r)

/-- `f.codebits[codeOrder[i]] = …` for the lengths given, 0 for the others. -/
def codebits (given : List Nat) : List Nat :=
  (codeOrder.zip given).foldl (fun a p => a.set p.1 p.2) (List.replicate 19 0)

/-- The loop of `readHuffman` over the code lengths; `a` is `f.bits[0:i]`. -/
def runs (h : Huff) (n : Nat) : Nat → List Nat → Bits → Option (List Nat × Bits)
  | 0, _, _ => none
  | fuel + 1, a, b =>
    if n ≤ a.length then some (a, b)
    else
      match huffSym h b with
      | none => none
      | some (x, b) =>
        if x < 16 then runs h n fuel (a ++ [x]) b
        else
          match (if x = 16 then a.getLast?.map (fun v => (3, 2, v)) else if x = 17 then some (3, 3, 0) else some (11, 7, 0)) with
          | none => none
          | some (rep, nb, v) =>
            match take nb b with
            | none => none
            | some (y, b) => if a.length + (rep + y) > n then none else runs h n fuel (a ++ List.replicate (rep + y) v) b

/-- `readHuffman`: the two decoders. The bits to read at least for a literal or length are those of the end marker. -/
def readHuffman (b : Bits) : Option (Huff × Huff × Bits) :=
  match take 5 b with
  | none => none
  | some (hlit, b) =>
    match take 5 b with
    | none => none
    | some (hdist, b) =>
      match take 4 b with
      | none => none
      | some (hclen, b) =>
        if hlit + 257 > 286 ∨ hdist + 1 > 30 then none
        else
          match clens (hclen + 4) b with
          | none => none
          | some (g, b) =>
            match init (codebits g) with
            | none => none
            | some h =>
              match runs h (hlit + 257 + (hdist + 1)) (b.length + 1) [] b with
              | none => none
              | some (l, b) =>
                match init (l.take (hlit + 257)), init (l.drop (hlit + 257)) with
                | some h1, some h2 => some ({ h1 with min := if h1.min < l[256]?.getD 0 then l[256]?.getD 0 else h1.min }, h2, b)
                | _, _ => none

/-- `dataBlock` and `copyData`: at an early end what there is of the data is put out. -/
def dataBlock (o : Bytes) (b : Bits) : Bytes × Option Bits :=
  let b := b.drop (b.length % 8)
  match takeBytes 4 b with
  | some ([a, a', c, c'], b) =>
    let n := a.toNat + a'.toNat * 256
    if c.toNat + c'.toNat * 256 ≠ 65535 - n then (o, none)
    else
      match takeBytes n b with
      | some (d, b) => (o ++ d, some b)
      | none => (o ++ ((takeBytes (b.length / 8) b).map (·.1)).getD [], none)
  | _ => (o, none)

/-- `nextBlock` after the bit `final`. -/
def block (o : Bytes) (b : Bits) : Bytes × Option Bits :=
  match take 2 b with
  | none => (o, none)
  | some (typ, b) =>
    if typ = 0 then dataBlock o b
    else if typ = 1 then
      match fixedHuff with
      | some h => body h none (b.length + 1) o b
      | none => (o, none)
    else if typ = 2 then
      match readHuffman b with
      | some (h1, h2, b) => body h1 (some h2) (b.length + 1) o b
      | none => (o, none)
    else (o, none)

/-- The blocks (`nextBlock`, `finishBlock`). -/
def blocks : Nat → Bytes → Bits → Bytes × Option Bits
  | 0, o, _ => (o, none)
  | fuel + 1, o, b =>
    -- three bits are there before anything is looked at
    if b.length < 3 then (o, none)
    else
      match b with
      | [] => (o, none)
      | final :: b =>
        match block o b with
        | (o, none) => (o, none)
        | (o, some b) => if final then (o, some b) else blocks fuel o b

/-- All that a flate reader delivers, and the bytes after it (nothing is read beyond the last byte with bits of the stream); none after an error. -/
def inflate (z : Bytes) : Bytes × Option Bytes :=
  match blocks ((bits z).length + 1) [] (bits z) with
  | (o, none) => (o, none)
  | (o, some b) => (o, some (z.drop (z.length - b.length / 8)))

/-! ## zlib (zlib/reader.go) -/

/-- `adler32`: `s1 += p[i]; s2 += s1`, both modulo 65521. -/
def adler32 (bs : Bytes) : Nat :=
  let s := bs.foldl (fun s p => ((s.1 + p.toNat) % 65521, (s.2 + (s.1 + p.toNat) % 65521) % 65521)) (1, 0)
  s.2 * 65536 + s.1

/-- `binary.BigEndian.Uint32`. -/
def be32 : Bytes → Option Nat
  | [a, b, c, d] => some (((a.toNat * 256 + b.toNat) * 256 + c.toNat) * 256 + d.toNat)
  | _ => none

/-- `reader.Reset`: what follows the header; none if it is refused. -/
def zlibHeader : Bytes → Option Bytes
  | a :: b :: z =>
    if a.toNat % 16 ≠ 8 ∨ a.toNat / 16 > 7 ∨ (a.toNat * 256 + b.toNat) % 31 ≠ 0 then none
    else if b.toNat / 32 % 2 = 1 then
      if be32 (z.take 4) = some 1 then some (z.drop 4) else none
    else some z
  | _ => none

/-- All that a zlib reader delivers, and whether it ends with io.EOF; none if `NewReader` fails. What follows the checksum is not looked at. -/
def zlibRead (z : Bytes) : Option (Bytes × Bool) :=
  match zlibHeader z with
  | none => none
  | some z =>
    match inflate z with
    | (o, none) => some (o, false)
    | (o, some r) => some (o, be32 (r.take 4) = some (adler32 o))

/-! ## gzip (gzip/gunzip.go) -/

/-- `readString`: the bytes up to the zero byte, which is looked for in the first 512; what was read, and the rest. -/
def readString (z : Bytes) : Option (Bytes × Bytes) :=
  match (z.take 512).findIdx? (· = 0) with
  | none => none
  | some i => some (z.take (i + 1), z.drop (i + 1))

/-- The bytes that a flag announces, put after the header read so far. -/
def part (there : Bool) (read : Bytes → Option (Bytes × Bytes)) (s : Bytes × Bytes) : Option (Bytes × Bytes) :=
  if there then
    match read s.2 with
    | none => none
    | some (a, r) => some (s.1 ++ a, r)
  else some s

/-- The extra field: its length in two bytes, and the data. -/
def readExtra (z : Bytes) : Option (Bytes × Bytes) :=
  match z with
  | a :: b :: r => if r.length < a.toNat + b.toNat * 256 then none else some (a :: b :: r.take (a.toNat + b.toNat * 256), r.drop (a.toNat + b.toNat * 256))
  | _ => none

/-- `readHeader`, if there are ten bytes: what follows the header. -/
def gzipHeader (z : Bytes) : Option Bytes :=
  if z.length < 10 then none
  else if z.take 3 ≠ [31, 139, 8] then none
  else
    let flg := (z[3]?.getD 0).toNat
    match part (flg / 4 % 2 = 1) readExtra (z.take 10, z.drop 10) with
    | none => none
    | some s =>
      match part (flg / 8 % 2 = 1) readString s with
      | none => none
      | some s =>
        match part (flg / 16 % 2 = 1) readString s with
        | none => none
        | some (h, z) =>
          if flg / 2 % 2 = 1 then
            match z with
            | a :: b :: z => if a.toNat + b.toNat * 256 = (Gofer.Crc32.crc32 h).toNat % 65536 then some z else none
            | _ => none
          else some z

/-- `Reader.Read` to the end, after a header: checksum and size after each member, then, if anything is left, the next header. -/
def members : Nat → Bytes → Bytes × Bool
  | 0, _ => ([], false)
  | fuel + 1, z =>
    match inflate z with
    | (o, none) => (o, false)
    | (o, some r) =>
      if be32 ((r.take 4).reverse) ≠ some (Gofer.Crc32.crc32 o).toNat ∨ be32 (((r.drop 4).take 4).reverse) ≠ some (o.length % 2 ^ 32) then (o, false)
      else if r.drop 8 = [] then (o, true)
      else
        match gzipHeader (r.drop 8) with
        | none => (o, false)
        | some z =>
          let x := members fuel z
          (o ++ x.1, x.2)

/-- All that a gzip reader delivers, and whether it ends with io.EOF; none if `NewReader` fails. -/
def gzipRead (z : Bytes) : Option (Bytes × Bool) :=
  match gzipHeader z with
  | none => none
  | some r => some (members (z.length + 1) r)

/-! ## The functions of the packages -/

/-- The reading side of a codec. -/
def reader (r : Bytes → Option (Bytes × Bool)) : Spec.Codec.Codec := ⟨id, id, id, r⟩

/-- `compress.UnZlib` (compress/compress.go:45-58). -/
def unZlib (z : Bytes) : Compress.Out := Compress.unZlib (reader zlibRead) z

/-- `compress.UnGzip` (compress/compress.go:72-85). -/
def unGzip (z : Bytes) : Compress.Out := Compress.unZlib (reader gzipRead) z

/-- `util.UnZlib` (util/compress.go:33-42). -/
def utilUnZlib (z : Bytes) : Compress.Out := Compress.utilUnZlib (reader zlibRead) z

/-- `util.UnGzip` (util/compress.go:51-67), with the results of its calls of `Read`. -/
def utilUnGzip (z : Bytes) (split : List (Bytes × Compress.RErr)) : Compress.Out := Compress.utilUnGzip (reader gzipRead) z split

end Gofer.Inflate
