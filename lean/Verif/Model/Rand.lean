import Verif.Model.Num
/-!
# Model of `RandUint` and `RandInt64Strict` (`util/encode.go`)

The libraries `math/rand` (the part with an explicit source) and `crypto/rand.Int` are modelled from Go's source. The
generator behind a seed is a parameter: `gen s k` is the `k`-th value of `Int63` for the normalised seed `s`. The loops
that draw until a value is accepted get a bound on the number of draws (`fuel`); `spin` means that none of so many draws
was accepted.
-/
namespace Gofer.Rand

/-- Outcome of a call. -/
inductive Res (α : Type) where
  | panic
  | spin
  | ok (a : α)
deriving DecidableEq, Repr

/-- The seed as `rngSource.Seed` uses it (library, math/rand/rng.go): remainder by 2^31-1, made non-negative, 0 replaced. -/
def normSeed (seed : Int) : Nat :=
  let s := seed.tmod (2 ^ 31 - 1)
  let s := if s < 0 then s + (2 ^ 31 - 1) else s
  if s = 0 then 89482311 else s.toNat

/-- The first of the draws `f 0, f 1, ...` that is at most `max`. -/
def reject (max : Nat) (f : Nat → Nat) : Nat → Option Nat
  | 0 => none
  | fuel + 1 => if f 0 ≤ max then some (f 0) else reject max (fun k => f (k + 1)) fuel

/-- The common shape of `Rand.Int31n` and `Rand.Int63n` (library), `m` being 2^31 or 2^63. -/
def boundedN (m : Nat) (f : Nat → Nat) (n fuel : Nat) : Res Nat :=
  if n &&& (n - 1) = 0 then
    match fuel with
    | 0 => .spin
    | _ + 1 => .ok (f 0 &&& (n - 1))
  else
    match reject (m - 1 - m % n) f fuel with
    | none => .spin
    | some v => .ok (v % n)

/-- `Rand.Intn` (library) over the values `f` of `Int63`; `Int31` is the upper 31 bits. -/
def intn (f : Nat → Nat) (n : Int) (fuel : Nat) : Res Nat :=
  if n ≤ 0 then .panic
  else if n ≤ 2 ^ 31 - 1 then boundedN (2 ^ 31) (fun k => f k / 2 ^ 32) n.toNat fuel
  else boundedN (2 ^ 63) f n.toNat fuel

/-- `RandUint` (util/encode.go:94-96); `seed` is the number of the new UUID. -/
def randUint (gen : Nat → Nat → Nat) (seed : BitVec 64) (i : UInt64) (fuel : Nat) : Res Nat :=
  intn (gen (normSeed seed.toInt)) i.toBitVec.toInt fuel

/-- `big.Int.BitLen` (library). -/
def bitLen (n : Nat) : Nat := if n = 0 then 0 else n.log2 + 1

/-- `big.Int.SetBytes` (library). -/
def setBytes (bs : List UInt8) : Nat := bs.foldl (fun a b => a * 256 + b.toNat) 0

/-- `bytes[0] &= uint8(int(1<<b) - 1)` (library). -/
def mask (b : Nat) : List UInt8 → List UInt8
  | [] => []
  | x :: xs => (x &&& (2 ^ b - 1).toUInt8) :: xs

/-- The loop of `rand.Int` (library): `read j` is what the `j`-th `io.ReadFull` of `k` bytes delivers, `none` for an error. -/
def intLoop (max b : Nat) (read : Nat → Option (List UInt8)) : Nat → Res (Option Nat)
  | 0 => .spin
  | fuel + 1 =>
    match read 0 with
    | none => .ok none
    | some bs =>
      let n := setBytes (mask b bs)
      if n < max then .ok (some n) else intLoop max b (fun j => read (j + 1)) fuel

/-- `rand.Int` (library, crypto/rand/util.go). `read k j` is the `j`-th read, of `k` bytes. -/
def cryptoInt (read : Nat → Nat → Option (List UInt8)) (max : Int) (fuel : Nat) : Res (Option Nat) :=
  if max ≤ 0 then .panic
  else
    let l := bitLen (max.toNat - 1)
    if l = 0 then .ok (some 0)
    else intLoop max.toNat (if l % 8 = 0 then 8 else l % 8) (read ((l + 7) / 8)) fuel

/-- `RandInt64Strict` (util/encode.go:98-104): the number, and whether the error is nil. -/
def randInt64Strict (read : Nat → Nat → Option (List UInt8)) (i : BitVec 64) (fuel : Nat) : Res (BitVec 64 × Bool) :=
  match cryptoInt read i.toInt fuel with
  | .panic => .panic
  | .spin => .spin
  | .ok (some r) => .ok (BitVec.ofNat 64 r, true)
  | .ok none => .ok (0, false)

end Gofer.Rand
