/-!
# Model of the RSA part of `keystore/key.go`

PEM and DER decoding and the file system are parameters. `crypto/rsa` (Go 1.23, library) is modelled
by its arithmetic on big-endian numbers: `EncryptPKCS1v15`, `DecryptPKCS1v15`. Decryption is modelled
as `c^d mod n`; the library computes the same number with the Chinese remainder theorem and checks
the key on parsing. Random padding is whatever the environment delivers.
-/
namespace Gofer.Rsa

abbrev Bytes := List UInt8

/-- Why a call fails with an error. -/
inductive Err where
  | notExist
  | io
  | badKey
  | tooLong
  | random
  | decryption
deriving DecidableEq, Repr

/-- The two named results: a slice, `none` for nil, and an error, `none` for nil. -/
structure Out where
  bytes : Option Bytes
  err : Option Err
deriving DecidableEq, Repr

/-- What `x509.ParsePKIXPublicKey` answers: an error, an RSA key, or a key of another type. -/
inductive Pkix where
  | bad
  | rsa (n e : Nat)
  | other

/-- A parsed private key. -/
structure Priv where
  n : Nat
  e : Nat
  d : Nat

/-- The decoders (library): `pem.Decode` returns nil if there is no PEM block. -/
structure Lib where
  pem : Bytes → Option Bytes
  pkix : Bytes → Pkix
  pkcs1 : Bytes → Option Priv

/-- The file system: `util.IsFileExist` and `os.ReadFile`. -/
structure Fs where
  isExist : String → Bool
  read : String → Option Bytes

/-- `big.Int.BitLen` (library). -/
def bitLen (n : Nat) : Nat := if n = 0 then 0 else n.log2 + 1

/-- `PublicKey.Size` (library): the length of the modulus in bytes. -/
def size (n : Nat) : Nat := (bitLen n + 7) / 8

/-- The number of a big-endian byte string (library, `bigmod`). -/
def toNum (bs : Bytes) : Nat := bs.foldl (fun a b => a * 256 + b.toNat) 0

/-- The big-endian byte string of `k` bytes of a number (library, `bigmod`). -/
def ofNum : Nat → Nat → Bytes
  | 0, _ => []
  | k + 1, v => ofNum k (v / 256) ++ [(v % 256).toUInt8]

/-- `b^e mod n` by squaring (library). -/
def powMod (n b : Nat) (e : Nat) : Nat :=
  if h : e = 0 then 1 % n
  else
    let r := powMod n (b * b % n) (e / 2)
    if e % 2 = 1 then r * b % n else r
termination_by e
decreasing_by omega

/-- `checkPub` (library): the exponent must be in range. -/
def checkPub (e : Nat) : Bool := 2 ≤ e && e < 2 ^ 31

/-- `encrypt` (library): the modulus must be odd and the number below it. -/
def rawEncrypt (n e : Nat) (em : Bytes) : Out :=
  if n % 2 = 0 then ⟨none, some .badKey⟩
  else if n ≤ toNum em then ⟨none, some .badKey⟩
  else ⟨some (ofNum (size n) (powMod n (toNum em) e)), none⟩

/-- `rsa.EncryptPKCS1v15` (library). `rnd m` is what `nonZeroRandomBytes` yields for a slice of `m`
bytes, `none` if the source fails. -/
def encryptPKCS1v15 (rnd : Nat → Option Bytes) (n e : Nat) (msg : Bytes) : Out :=
  if !checkPub e then ⟨none, some .badKey⟩
  else if size n < msg.length + 11 then ⟨none, some .tooLong⟩
  else
    match rnd (size n - msg.length - 3) with
    | none => ⟨none, some .random⟩
    | some ps => rawEncrypt n e ([0, 2] ++ ps ++ [0] ++ msg)

/-- The scan for the first zero byte in `decryptPKCS1v15` (library): position, remaining bytes, index
found so far, still looking. -/
def scan : Nat → Bytes → Nat → Bool → Nat × Bool
  | _, [], index, looking => (index, looking)
  | i, b :: bs, index, looking =>
    scan (i + 1) bs (if looking && b == 0 then i else index) (if b == 0 then false else looking)

/-- `decryptPKCS1v15` from the decrypted block on (library). -/
def unpad (em : Bytes) : Out :=
  let (index, looking) := scan 2 (em.drop 2) 0 true
  if em.getD 0 1 == 0 && em.getD 1 0 == 2 && !looking && 10 ≤ index then
    ⟨some (em.drop (index + 1)), none⟩
  else ⟨none, some .decryption⟩

/-- What `Nat.SetBytes` (library, `bigmod`) refuses: more bytes than the words of 64 bits of the modulus have, even zeros, or a number
that is not below the modulus. -/
def overflows (n : Nat) (c : Bytes) : Bool := 8 * ((bitLen n + 63) / 64) < c.length || n ≤ toNum c

/-- `rsa.DecryptPKCS1v15` (library). -/
def decryptPKCS1v15 (k : Priv) (c : Bytes) : Out :=
  if !checkPub k.e then ⟨none, some .badKey⟩
  else if size k.n < 11 then ⟨none, some .decryption⟩
  else if k.n % 2 = 0 then ⟨none, some .decryption⟩
  else if overflows k.n c then ⟨none, some .decryption⟩
  else unpad (ofNum (size k.n) (powMod k.n (toNum c) k.d))

/-- `RsaEncryptByBytes` (keystore/key.go:111-119). A nil block is dereferenced, and a key of another
type fails the type assertion: both panics are swallowed by `_recovr` (:148-151), and the named
results are still nil. A parse error is dropped in the same way by the `if`. -/
def rsaEncryptByBytes (lib : Lib) (rnd : Nat → Option Bytes) (msg publickeyBs : Bytes) : Out :=
  match lib.pem publickeyBs with
  | none => ⟨none, none⟩
  | some block =>
    match lib.pkix block with
    | .bad => ⟨none, none⟩
    | .other => ⟨none, none⟩
    | .rsa n e => encryptPKCS1v15 rnd n e msg

/-- `RsaDecryptByBytes` (keystore/key.go:139-146). -/
def rsaDecryptByBytes (lib : Lib) (cipherText privateBs : Bytes) : Out :=
  match lib.pem privateBs with
  | none => ⟨none, none⟩
  | some block =>
    match lib.pkcs1 block with
    | none => ⟨none, none⟩
    | some k => decryptPKCS1v15 k cipherText

/-- The choice of the key bytes in `RsaEncrypt` and `RsaDecrypt` (keystore/key.go:95-107, :123-135):
the embedded key for an empty path. -/
def keyBytes (fs : Fs) (embedded : Bytes) (path : String) : Except Err Bytes :=
  if path ≠ "" then
    if fs.isExist path then
      match fs.read path with
      | none => .error .io
      | some buf => .ok buf
    else .error .notExist
  else .ok embedded

/-- `RsaEncrypt` (keystore/key.go:93-109); `defaultPub` is the variable `defaultPubKey` (:37). -/
def rsaEncrypt (lib : Lib) (fs : Fs) (defaultPub : Bytes) (rnd : Nat → Option Bytes) (msg : Bytes)
    (path : String) : Out :=
  match keyBytes fs defaultPub path with
  | .error e => ⟨none, some e⟩
  | .ok buf => rsaEncryptByBytes lib rnd msg buf

/-- `RsaDecrypt` (keystore/key.go:121-137); `defaultPri` is the variable `defaultPriKey` (:21). -/
def rsaDecrypt (lib : Lib) (fs : Fs) (defaultPri : Bytes) (cipherText : Bytes) (path : String) : Out :=
  match keyBytes fs defaultPri path with
  | .error e => ⟨none, some e⟩
  | .ok buf => rsaDecryptByBytes lib cipherText buf

end Gofer.Rsa
