/-!
# Model of `base58/base58.go`

`uint64` is `UInt64` (wrap-around arithmetic), `[]byte` is `List UInt8`.
-/
namespace Gofer.Base58

/-- `b58Alphabet` (base58/base58.go:13). -/
def b58Alphabet : List UInt8 :=
  ['1','2','3','4','5','6','7','8','9','A','B','C','D','E','F','G','H','J','K','L','M','N','P','Q',
   'R','S','T','U','V','W','X','Y','Z','a','b','c','d','e','f','g','h','i','j','k','m','n','o','p',
   'q','r','s','t','u','v','w','x','y','z'].map fun c => c.toNat.toUInt8

/-- The `for v > 0` loop of `EncodeForInt64` (base58/base58.go:17-21); `r` is `_r`.
`b58Alphabet[mod]` cannot be out of range since `mod < 58`; the default of `getD` is never used. -/
def encodeLoop (v : UInt64) (r : List UInt8) : List UInt8 :=
  if _h : 0 < v then
    encodeLoop (v / 58) (r ++ [b58Alphabet.getD (v % 58).toNat 0])
  else r
termination_by v.toNat
decreasing_by
  simp only [UInt64.toNat_div, UInt64.lt_iff_toNat_lt] at *
  simp at *
  omega

/-- One iteration of the loop of `reverseBytes` (base58/base58.go:27): swap `bytes[i]` and
`bytes[len-1-i]`. Both indices are in range when `i < len/2`. -/
def swapAt (bs : List UInt8) (i : Nat) : List UInt8 :=
  let j := bs.length - 1 - i
  (bs.set i (bs.getD j 0)).set j (bs.getD i 0)

/-- `reverseBytes` (base58/base58.go:25-30): `for i := 0; i < len/2; i++ { swap }`. -/
def reverseBytes (bs : List UInt8) : List UInt8 :=
  (List.range (bs.length / 2)).foldl swapAt bs

/-- `EncodeForInt64` (base58/base58.go:16-23). -/
def encodeForInt64 (v : UInt64) : List UInt8 := reverseBytes (encodeLoop v [])

/-- The loop of `DecodeForInt64` (base58/base58.go:35-44). `bytes.IndexByte` is `List.idxOf?`
(`none` for -1). The deferred `recover` (line 34) never has anything to recover. -/
def decodeLoop : List UInt8 → UInt64 → UInt64 × Bool
  | [], r => (r, true)
  | b :: bs, r =>
    match b58Alphabet.idxOf? b with
    | some idx => decodeLoop bs (r * 58 + idx.toUInt64)
    | none => (0, false)

/-- `DecodeForInt64` (base58/base58.go:33-45). -/
def decodeForInt64 (bs : List UInt8) : UInt64 × Bool := decodeLoop bs 0

end Gofer.Base58
