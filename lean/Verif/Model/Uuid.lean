import Verif.Model.Num

/-!
# Model of `uuid/uuid.go`

A UUID is a list of 16 bytes; a `*UUID` is an address in a heap of UUIDs. The hash functions
(`maphash.Bytes`, `fnv.New128a`) are not modelled: the hash value of a call is arbitrary. `newBase` and
`getMachineID` only choose the hash input and the start of the sequence, both arbitrary here.
`encoding/hex` is a library.
-/
namespace Gofer.Uuid
open Gofer.Num

abbrev Bytes := List UInt8

/-- The zero value of `[16]byte` with the two writes and the two masks of `NewUUID` (uuid/uuid.go:32-40),
for given results of `base.uniq()`. -/
def mk (h64 : BitVec 64) (seq : BitVec 64) : Bytes :=
  let u := int64ToBytes h64 ++ int64ToBytes seq
  let u := u.set 6 ((u.getD 6 0 &&& 0x0f) ||| 0x40)
  u.set 8 ((u.getD 8 0 &&& 0x3f) ||| 0x80)

/-- `hextable` of encoding/hex (library). -/
def hexChar (n : Nat) : UInt8 := if n < 10 then (48 + n).toUInt8 else (87 + n).toUInt8

/-- The bytes `hex.Encode` writes (library). -/
def hexEncode (bs : Bytes) : Bytes := bs.flatMap fun b => [hexChar (b.toNat / 16), hexChar (b.toNat % 16)]

/-- Write `bs` into `dst` from index `off` on. -/
def writeAt (dst : Bytes) (off : Nat) (bs : Bytes) : Bytes := dst.take off ++ bs ++ dst.drop (off + bs.length)

/-- `u[i:j]`. -/
def slice (u : Bytes) (i j : Nat) : Bytes := (u.drop i).take (j - i)

/-- `UUID.String` (uuid/uuid.go:42-54). -/
def text (u : Bytes) : Bytes :=
  let dst := List.replicate 36 0
  let dst := writeAt dst 0 (hexEncode (slice u 0 4))
  let dst := dst.set 8 45
  let dst := writeAt dst 9 (hexEncode (slice u 4 6))
  let dst := dst.set 13 45
  let dst := writeAt dst 14 (hexEncode (slice u 6 8))
  let dst := dst.set 18 45
  let dst := writeAt dst 19 (hexEncode (slice u 8 10))
  let dst := dst.set 23 45
  writeAt dst 24 (hexEncode (u.drop 10))

/-- `UUID.Int64` (uuid/uuid.go:56-58). -/
def toInt64 (u : Bytes) : BitVec 64 := bytesToInt64 (u.take 8)

/-- `UUID.Int32` (uuid/uuid.go:60-62); `hash64` is `maphash.Bytes` with the seed of the process (uuid/uuid.go:158-162). -/
def toInt32 (hash64 : Bytes → BitVec 64) (u : Bytes) : BitVec 32 := (hash64 u).setWidth 32

/-- `util.UUID32` (util/encode.go:124-126) of the UUID that `NewUUID` returned to it. -/
def uuid32 (hash64 : Bytes → BitVec 64) (u : Bytes) : BitVec 32 := toInt32 hash64 u

/-- `UUID.Version` (uuid/uuid.go:69-71). -/
def version (u : Bytes) : Nat := (u.getD 6 0 >>> 4).toNat

/-- `UUID.Variant` (uuid/uuid.go:84-93). -/
def variant (u : Bytes) : Nat :=
  if u.getD 8 0 &&& 0xe0 = 0x80 then 1 else if u.getD 8 0 &&& 0xe0 = 0xc0 then 2 else 0

/-- `fromHexChar` of encoding/hex (library). -/
def fromHexChar (c : UInt8) : Option Nat :=
  if 48 ≤ c ∧ c ≤ 57 then some (c.toNat - 48)
  else if 97 ≤ c ∧ c ≤ 102 then some (c.toNat - 97 + 10)
  else if 65 ≤ c ∧ c ≤ 70 then some (c.toNat - 65 + 10)
  else none

/-- `hex.Decode` (library); `none` is an error. -/
def hexDecode : Bytes → Option Bytes
  | [] => some []
  | [_] => none
  | h :: l :: r =>
    match fromHexChar h, fromHexChar l with
    | some a, some b =>
      match hexDecode r with
      | some bs => some ((a * 16 + b).toUInt8 :: bs)
      | none => none
    | _, _ => none

/-- `Parse` (uuid/uuid.go:95-105). -/
def parse (s : Bytes) : Option Bytes :=
  if s.length ≠ 36 then none
  else hexDecode (slice s 0 8 ++ slice s 9 13 ++ slice s 14 18 ++ slice s 19 23 ++ s.drop 24)

/-- `UUID.Equals` (uuid/uuid.go:77-82) on pointers: the comparison is of the addresses. -/
def equals (u : Nat) (other : Option Nat) : Bool :=
  match other with
  | none => false
  | some o => u == o

/-! ### Concurrent `NewUUID` calls

`base.seq` is shared; `getSeq` (uuid/uuid.go:150-156) adds one atomically and returns the new value, the
rest of a call is local. A goroutine's call is two actions: the atomic add, and the rest with an arbitrary
hash value. -/

/-- Goroutines `0 … n-1`: the sequence number a goroutine holds in the middle of a call; the UUIDs returned
so far. -/
structure St (n : Nat) where
  seq : BitVec 64
  held : Fin n → Option (BitVec 64)
  out : List Bytes

/-- Actions. -/
inductive Act (n : Nat) where
  | add (t : Fin n)
  | finish (t : Fin n) (h64 : BitVec 64)

/-- One action; `none` if it is not possible. -/
def act {n : Nat} (s : St n) : Act n → Option (St n)
  | .add t =>
    match s.held t with
    | some _ => none
    | none => some { s with seq := s.seq + 1, held := fun i => if i = t then some (s.seq + 1) else s.held i }
  | .finish t h64 =>
    match s.held t with
    | none => none
    | some q => some { s with held := fun i => if i = t then none else s.held i, out := mk h64 q :: s.out }

/-- An execution. -/
def exec {n : Nat} (s : St n) : List (Act n) → Option (St n)
  | [] => some s
  | a :: as => match act s a with
    | some s' => exec s' as
    | none => none

/-- Before any call. -/
def init (n : Nat) (seq : BitVec 64) : St n := ⟨seq, fun _ => none, []⟩

/-- Number of `NewUUID` calls started in an execution. -/
def starts {n : Nat} : List (Act n) → Nat
  | [] => 0
  | .add _ :: as => starts as + 1
  | .finish .. :: as => starts as

end Gofer.Uuid
