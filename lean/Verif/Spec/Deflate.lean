import Verif.Model.Crc32
/-!
# Compressed data: RFC 1951 (deflate), RFC 1950 (zlib), RFC 1952 (gzip)

The formats as relations between data and bytes. Where a reader may choose, the choice of Go is taken: at most 30 distance codes are declared, a Huffman code is complete, or
has one code of one bit, or is empty; names and comments in gzip headers are shorter than 512 bytes; further flags are ignored.
-/
namespace Gofer.Spec.Deflate

abbrev Bits := List Bool
abbrev Bytes := List UInt8

/-! ## Bits and numbers -/

def bit (b : Bool) : Nat := if b then 1 else 0

/-- The number with these bits, the least significant one first (RFC 1951 3.1.1: "data elements other than Huffman codes"). -/
def low : Bits → Nat
  | [] => 0
  | b :: l => bit b + 2 * low l

/-- The number with these bits, the most significant one first (Huffman codes). -/
def high : Bits → Nat
  | [] => 0
  | b :: l => bit b * 2 ^ l.length + high l

/-- The bits of a byte, the least significant one first. -/
def bitsOf (b : UInt8) : Bits := (List.range 8).map b.toNat.testBit

def bits (bs : Bytes) : Bits := bs.flatMap bitsOf

/-! ## Huffman codes (RFC 1951 3.2.2)

`lens[s]` is the length of the code of the symbol `s`, 0 if it has none. Codes of the same length are consecutive numbers in the order of their symbols, and shorter codes come
before longer ones. -/

/-- The first code of length `n`: how many strings of `n` bits begin with a shorter code. -/
def first (lens : List Nat) (n : Nat) : Nat := ((lens.filter fun l => 0 < l ∧ l < n).map fun l => 2 ^ (n - l)).sum

/-- `c` is the code of the symbol `s`. -/
def Code (lens : List Nat) (s : Nat) (c : Bits) : Prop :=
  ∃ n, lens[s]? = some n ∧ 0 < n ∧ c.length = n ∧ high c = first lens n + (lens.take s).count n

/-- The lengths are those of a code in which every sequence of bits can be read, or of a code with a single code of one bit, or of no code at all. -/
def Coding (lens : List Nat) : Prop :=
  (∀ l ∈ lens, l ≤ 15) ∧
    (((lens.filter fun l => 0 < l).map fun l => 2 ^ (15 - l)).sum = 2 ^ 15 ∨ lens.filter (fun l => 0 < l) = [1] ∨ lens.filter (fun l => 0 < l) = [])

/-! ## Compressed blocks (RFC 1951 3.2.3 to 3.2.7) -/

/-- The lengths of the codes 257 to 285, and the number of extra bits. -/
def lenBase : List (Nat × Nat) :=
  [(3, 0), (4, 0), (5, 0), (6, 0), (7, 0), (8, 0), (9, 0), (10, 0), (11, 1), (13, 1), (15, 1), (17, 1), (19, 2), (23, 2), (27, 2), (31, 2), (35, 3), (43, 3), (51, 3), (59, 3),
   (67, 4), (83, 4), (99, 4), (115, 4), (131, 5), (163, 5), (195, 5), (227, 5), (258, 0)]

/-- The distances of the codes 0 to 29, and the number of extra bits. -/
def distBase : List (Nat × Nat) :=
  [(1, 0), (2, 0), (3, 0), (4, 0), (5, 1), (7, 1), (9, 2), (13, 2), (17, 3), (25, 3), (33, 4), (49, 4), (65, 5), (97, 5), (129, 6), (193, 6), (257, 7), (385, 7),
   (513, 8), (769, 8), (1025, 9), (1537, 9), (2049, 10), (3073, 10), (4097, 11), (6145, 11), (8193, 12), (12289, 12), (16385, 13), (24577, 13)]

/-- `o'` is `o` with `n` more bytes, each the one that is `d` places before it. -/
def Copied (o : Bytes) (n d : Nat) (o' : Bytes) : Prop :=
  o <+: o' ∧ o'.length = o.length + n ∧ ∀ i, o.length ≤ i → i < o'.length → o'[i]? = o'[i - d]?

/-- The bits of a block after its header, with the codes for literals and lengths and for distances; what there was before it and what there is after it. -/
inductive Body (L D : List Nat) : Bytes → Bits → Bytes → Prop
  | stop (o : Bytes) (c : Bits) : Code L 256 c → Body L D o c o
  | lit (o o' : Bytes) (c r : Bits) (b : UInt8) : Code L b.toNat c → Body L D (o ++ [b]) r o' → Body L D o (c ++ r) o'
  | copy (o o₁ o' : Bytes) (c e d f r : Bits) (v w n x m y : Nat) : Code L (257 + v) c → lenBase[v]? = some (n, x) → e.length = x → Code D w d →
      distBase[w]? = some (m, y) → f.length = y → m + low f ≤ o.length → Copied o (n + low e) (m + low f) o₁ → Body L D o₁ r o' →
      Body L D o (c ++ (e ++ (d ++ (f ++ r)))) o'

/-- The fixed codes. -/
def fixedL : List Nat := List.replicate 144 8 ++ List.replicate 112 9 ++ List.replicate 24 7 ++ List.replicate 8 8
def fixedD : List Nat := List.replicate 32 5

/-- The order in which the lengths of the code length codes are given. -/
def order : List Nat := [16, 17, 18, 0, 8, 7, 9, 6, 10, 5, 11, 4, 12, 3, 13, 2, 14, 1, 15]

/-- The lengths of the code length codes. -/
def lengthCode (given : List Nat) : List Nat := (List.range 19).map fun s => (given[order.idxOf s]?).getD 0

/-- Code lengths, given by a code `C` with repetitions; what there was before and what there is at the end. -/
inductive Runs (C : List Nat) : List Nat → Bits → List Nat → Prop
  | done (a : List Nat) : Runs C a [] a
  | one (a a' : List Nat) (c r : Bits) (v : Nat) : v < 16 → Code C v c → Runs C (a ++ [v]) r a' → Runs C a (c ++ r) a'
  | same (a a' : List Nat) (c e r : Bits) (v : Nat) : Code C 16 c → e.length = 2 → a.getLast? = some v → Runs C (a ++ List.replicate (3 + low e) v) r a' →
      Runs C a (c ++ (e ++ r)) a'
  | zeros (a a' : List Nat) (c e r : Bits) : Code C 17 c → e.length = 3 → Runs C (a ++ List.replicate (3 + low e) 0) r a' → Runs C a (c ++ (e ++ r)) a'
  | many (a a' : List Nat) (c e r : Bits) : Code C 18 c → e.length = 7 → Runs C (a ++ List.replicate (11 + low e) 0) r a' → Runs C a (c ++ (e ++ r)) a'

/-- The header of a block with its own codes. -/
def Codes (L D : List Nat) (h : Bits) : Prop :=
  ∃ (a b c r : Bits) (g : List Bits), h = a ++ (b ++ (c ++ (g.flatten ++ r))) ∧ a.length = 5 ∧ b.length = 5 ∧ c.length = 4 ∧ (∀ x ∈ g, x.length = 3) ∧
    g.length = low c + 4 ∧ L.length = low a + 257 ∧ D.length = low b + 1 ∧ L.length ≤ 286 ∧ D.length ≤ 30 ∧
    Coding (lengthCode (g.map low)) ∧ Runs (lengthCode (g.map low)) [] r (L ++ D) ∧ Coding L ∧ Coding D

/-- A block that begins after `p` bits (the part after the bit that says whether it is the last). -/
inductive Block : Nat → Bytes → Bits → Bytes → Prop
  | stored (p : Nat) (o d : Bytes) (pad n n' : Bits) : pad.length < 8 → 8 ∣ p + 2 + pad.length → n.length = 16 → n'.length = 16 → low n = d.length → low n' = 65535 - d.length →
      Block p o ([false, false] ++ (pad ++ (n ++ (n' ++ bits d)))) (o ++ d)
  | fixed (p : Nat) (o o' : Bytes) (b : Bits) : Body fixedL fixedD o b o' → Block p o ([true, false] ++ b) o'
  | own (p : Nat) (o o' : Bytes) (h b : Bits) (L D : List Nat) : Codes L D h → Body L D o b o' → Block p o ([false, true] ++ (h ++ b)) o'

/-- Blocks, of which the last one says so. -/
inductive Blocks : Nat → Bytes → Bits → Bytes → Prop
  | last (p : Nat) (o o' : Bytes) (b : Bits) : Block (p + 1) o b o' → Blocks p o (true :: b) o'
  | more (p : Nat) (o o₁ o' : Bytes) (b r : Bits) : Block (p + 1) o b o₁ → Blocks (p + 1 + b.length) o₁ r o' → Blocks p o (false :: (b ++ r)) o'

/-- Blocks, none of which says that it is the last. -/
inductive Open : Nat → Bytes → Bits → Bytes → Prop
  | none (p : Nat) (o : Bytes) : Open p o [] o
  | more (p : Nat) (o o₁ o' : Bytes) (b r : Bits) : Block (p + 1) o b o₁ → Open (p + 1 + b.length) o₁ r o' → Open p o (false :: (b ++ r)) o'

/-- The bytes `z` are `data` compressed. -/
def Deflated (data z : Bytes) : Prop := ∃ b pad, bits z = b ++ pad ∧ pad.length < 8 ∧ Blocks 0 [] b data

/-- The bytes `z` are `data` compressed as far as after a `Flush`: the last block is still to come. -/
def Flushed (data z : Bytes) : Prop := Open 0 [] (bits z) data

/-! ## zlib (RFC 1950) -/

/-- The checksum Adler-32. -/
def adler (d : Bytes) : Nat :=
  ((d.length + ((List.range d.length).map fun i => (d.length - i) * (d[i]?.getD 0).toNat).sum) % 65521) * 65536 + (1 + (d.map UInt8.toNat).sum) % 65521

/-- The four bytes of a number, the most significant first. -/
def Big (n : Nat) (bs : Bytes) : Prop := ∃ a b c d : UInt8, bs = [a, b, c, d] ∧ n = ((a.toNat * 256 + b.toNat) * 256 + c.toNat) * 256 + d.toNat

/-- The four bytes of a number, the least significant first. -/
def Little (n : Nat) (bs : Bytes) : Prop := Big n bs.reverse

/-- Header of a zlib stream: method 8, window at most 32 KiB, check bits; with a preset dictionary only the empty one. -/
def ZHead (h : Bytes) : Prop :=
  ∃ cmf flg dict, h = cmf :: flg :: dict ∧ cmf.toNat % 16 = 8 ∧ cmf.toNat / 16 ≤ 7 ∧ (cmf.toNat * 256 + flg.toNat) % 31 = 0 ∧
    dict = if flg.toNat.testBit 5 then [0, 0, 0, 1] else []

/-- The bytes `z` are `data` in the format zlib. -/
def Zlib (data z : Bytes) : Prop := ∃ h d s, z = h ++ (d ++ s) ∧ ZHead h ∧ Deflated data d ∧ Big (adler data) s

/-! ## gzip (RFC 1952) -/

/-- A text that ends with a zero byte, if there is one. -/
def Name (there : Bool) (s : Bytes) : Prop := if there then ∃ n, s = n ++ [0] ∧ 0 ∉ n ∧ n.length < 512 else s = []

def Extra (there : Bool) (s : Bytes) : Prop := if there then ∃ a b d, s = a :: b :: d ∧ d.length = a.toNat + 256 * b.toNat else s = []

/-- The checksum of the header `h`. -/
def HeadSum (there : Bool) (h s : Bytes) : Prop :=
  if there then ∃ a b : UInt8, s = [a, b] ∧ (Gofer.Crc32.crc32 h).toNat % 65536 = a.toNat + 256 * b.toNat else s = []

/-- Header of a member. -/
def GHead (h : Bytes) : Prop :=
  ∃ flg m₁ m₂ m₃ m₄ xfl os x n c s, h = [31, 139, 8, flg, m₁, m₂, m₃, m₄, xfl, os] ++ (x ++ (n ++ (c ++ s))) ∧ Extra (flg.toNat.testBit 2) x ∧
    Name (flg.toNat.testBit 3) n ∧ Name (flg.toNat.testBit 4) c ∧ HeadSum (flg.toNat.testBit 1) ([31, 139, 8, flg, m₁, m₂, m₃, m₄, xfl, os] ++ (x ++ (n ++ c))) s

/-- A member with `data`. -/
def Member (data m : Bytes) : Prop :=
  ∃ h d c l, m = h ++ (d ++ (c ++ l)) ∧ GHead h ∧ Deflated data d ∧ Little (Gofer.Crc32.crc32 data).toNat c ∧ Little (data.length % 2 ^ 32) l

/-- The bytes `z` are `data` in the format gzip: one or more members. -/
inductive Gzip : Bytes → Bytes → Prop
  | one (d m : Bytes) : Member d m → Gzip d m
  | more (d d' m z : Bytes) : Member d m → Gzip d' z → Gzip (d ++ d') (m ++ z)

end Gofer.Spec.Deflate
