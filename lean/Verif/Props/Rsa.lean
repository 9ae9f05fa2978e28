import Verif.Proof.Rsa
import Mathlib.NumberTheory.LucasLehmer
import Mathlib.Tactic.NormNum.Prime

/-!
# C121-C125: RSA (`keystore/key.go`)
-/
namespace Gofer.Props.Rsa
open Gofer.Rsa Gofer.Spec.Rsa Gofer.Spec.Num

/-- The PEM text is accepted as the public key `(n, e)`. -/
def IsPub (lib : Lib) (pem : Bytes) (n e : Nat) : Prop :=
  ∃ b, lib.pem pem = some b ∧ lib.pkix b = .rsa n e

/-- The PEM text is accepted as the private key `(n, e, d)`. -/
def IsPri (lib : Lib) (pem : Bytes) (n e d : Nat) : Prop :=
  ∃ b, lib.pem pem = some b ∧ lib.pkcs1 b = some ⟨n, e, d⟩

theorem encryptByBytes_of {lib : Lib} {pub : Bytes} {n e : Nat} (h : IsPub lib pub n e)
    (rnd : Nat → Option Bytes) (msg : Bytes) :
    rsaEncryptByBytes lib rnd msg pub = encryptPKCS1v15 rnd n e msg := by
  obtain ⟨b, h1, h2⟩ := h
  simp [rsaEncryptByBytes, h1, h2]

theorem decryptByBytes_of {lib : Lib} {pri : Bytes} {n e d : Nat} (h : IsPri lib pri n e d) (c : Bytes) :
    rsaDecryptByBytes lib c pri = decryptPKCS1v15 ⟨n, e, d⟩ c := by
  obtain ⟨b, h1, h2⟩ := h
  simp [rsaDecryptByBytes, h1, h2]

/-- **C121.** A message that fits is encrypted without error to as many bytes as the modulus has, and
the private key of the pair gives exactly the message back; for every key pair, message and padding. -/
theorem C121_rsa_roundtrip (lib : Lib) (rnd : Nat → Option Bytes) (pub pri msg : Bytes) (n e d k : Nat)
    (hpub : IsPub lib pub n e) (hpri : IsPri lib pri n e d) (hkey : KeyPair n e d) (hk : ByteLen n k)
    (hrnd : GoodPadding rnd) (hlen : msg.length + 11 ≤ k) :
    ∃ c, rsaEncryptByBytes lib rnd msg pub = ⟨some c, none⟩ ∧ c.length = k ∧
      rsaDecryptByBytes lib c pri = ⟨some msg, none⟩ := by
  have hs := size_eq hk
  subst hs
  obtain ⟨ps, h1, h2, h3⟩ := hrnd (size n - msg.length - 3)
  obtain ⟨hb, hl, he⟩ := encrypt_eq hkey rnd msg ps hlen h1 h2 h3
  refine ⟨_, (encryptByBytes_of hpub rnd msg).trans he, ofNum_length _ _, ?_⟩
  rw [decryptByBytes_of hpri, decrypt_iff hkey (by omega)]
  refine ⟨by rw [ofNum_length]; omega, ps, _, hb, hl, ?_⟩
  have hodd := keyPair_odd hkey
  have hlt : beValue ([0, 2] ++ ps ++ [0] ++ msg) ^ e % n < n := Nat.mod_lt _ (by omega)
  rw [← toNum_eq (ofNum _ _), toNum_ofNum _ _ (lt_trans hlt (lt_size n))]

/-- **C122, as claimed**: a call that returns a nil error returned a result. -/
def C122_claim : Prop :=
  (∀ lib rnd msg pub, (rsaEncryptByBytes lib rnd msg pub).err = none →
    (rsaEncryptByBytes lib rnd msg pub).bytes ≠ none) ∧
  (∀ lib c pri, (rsaDecryptByBytes lib c pri).err = none → (rsaDecryptByBytes lib c pri).bytes ≠ none)

/-- C122 is false: text without a PEM block gives nil and a nil error. -/
theorem C122_claim_false : ¬ C122_claim := by
  intro h
  exact h.1 ⟨fun _ => none, fun _ => .bad, fun _ => none⟩ (fun _ => none) [1] [2] rfl rfl

/-- **C122, exactly.** Nil and a nil error are returned exactly when the key is not accepted (no PEM
block, a parse error, a key of another type); in all other cases there is a result or an error, never
both. The bytes of key and message play no other role. -/
theorem C122_silent_partial (lib : Lib) (rnd : Nat → Option Bytes) (msg pub c pri : Bytes) :
    (rsaEncryptByBytes lib rnd msg pub = ⟨none, none⟩ ↔ ¬ ∃ n e, IsPub lib pub n e) ∧
    (rsaDecryptByBytes lib c pri = ⟨none, none⟩ ↔ ¬ ∃ n e d, IsPri lib pri n e d) ∧
    ((rsaEncryptByBytes lib rnd msg pub).bytes = none ∨ (rsaEncryptByBytes lib rnd msg pub).err = none) ∧
    ((rsaDecryptByBytes lib c pri).bytes = none ∨ (rsaDecryptByBytes lib c pri).err = none) := by
  have he : ∀ n e, (encryptPKCS1v15 rnd n e msg ≠ ⟨none, none⟩) ∧
      ((encryptPKCS1v15 rnd n e msg).bytes = none ∨ (encryptPKCS1v15 rnd n e msg).err = none) := by
    intro n e
    unfold encryptPKCS1v15
    split
    · simp
    · split
      · simp
      · split
        · simp
        · unfold rawEncrypt
          split
          · simp
          · split <;> simp
  have hd : ∀ k, (decryptPKCS1v15 k c ≠ ⟨none, none⟩) ∧
      ((decryptPKCS1v15 k c).bytes = none ∨ (decryptPKCS1v15 k c).err = none) := by
    intro k
    unfold decryptPKCS1v15
    split
    · simp
    · split
      · simp
      · split
        · simp
        · split
          · simp
          · rcases unpad_cases (ofNum (size k.n) (powMod k.n (toNum c) k.d)) with ⟨m, h⟩ | h <;> rw [h] <;> simp
  refine ⟨?_, ?_, ?_, ?_⟩
  · constructor
    · rintro h ⟨n, e, hp⟩
      rw [encryptByBytes_of hp] at h
      exact (he n e).1 h
    · intro h
      unfold rsaEncryptByBytes
      split
      · rfl
      · rename_i b hb
        split
        · rfl
        · rfl
        · rename_i n e hk
          exact absurd ⟨n, e, b, hb, hk⟩ h
  · constructor
    · rintro h ⟨n, e, d, hp⟩
      rw [decryptByBytes_of hp] at h
      exact (hd _).1 h
    · intro h
      unfold rsaDecryptByBytes
      split
      · rfl
      · rename_i b hb
        split
        · rfl
        · rename_i k hk
          exact absurd ⟨k.n, k.e, k.d, b, hb, hk⟩ h
  · unfold rsaEncryptByBytes
    split
    · simp
    · split
      · simp
      · simp
      · exact (he _ _).2
  · unfold rsaDecryptByBytes
    split
    · simp
    · split
      · simp
      · exact (hd _).2

/-- **C123.** Decryption accepts exactly the ciphertexts of well-formed blocks: it returns `msg` if and
only if the ciphertext is the number of a block for `msg` raised to `e`, written with any leading zeros that fit the 64-bit words of the
modulus; everything else is reported as a decryption error. -/
theorem C123_decrypt_accepts (lib : Lib) (pri c : Bytes) (n e d k : Nat)
    (hpri : IsPri lib pri n e d) (hkey : KeyPair n e d) (hk : ByteLen n k) (hk11 : 11 ≤ k) :
    (∀ msg, rsaDecryptByBytes lib c pri = ⟨some msg, none⟩ ↔
      c.length ≤ 8 * ((k + 7) / 8) ∧ ∃ ps em, Block ps msg em ∧ em.length = k ∧ beValue c = beValue em ^ e % n) ∧
    ((∀ msg, rsaDecryptByBytes lib c pri ≠ ⟨some msg, none⟩) →
      rsaDecryptByBytes lib c pri = ⟨none, some .decryption⟩) := by
  have hs := size_eq hk
  subst hs
  rw [decryptByBytes_of hpri]
  refine ⟨fun msg => decrypt_iff hkey hk11 c msg, fun h => ?_⟩
  rw [decrypt_eq hkey hk11] at h ⊢
  split
  · rfl
  · rename_i hc
    rw [if_neg hc] at h
    rcases unpad_cases (ofNum (size n) (beValue c ^ d % n)) with ⟨m, hm⟩ | hm
    · exact absurd hm (h m)
    · exact hm

/-- What decryption returns is at least 11 bytes shorter than the modulus. -/
theorem C123_decrypt_short (lib : Lib) (pri c msg : Bytes) (n e d k : Nat)
    (hpri : IsPri lib pri n e d) (hkey : KeyPair n e d) (hk : ByteLen n k) (hk11 : 11 ≤ k)
    (h : rsaDecryptByBytes lib c pri = ⟨some msg, none⟩) : msg.length + 11 ≤ k := by
  obtain ⟨_, ps, em, ⟨h1, _, rfl⟩, h3, _⟩ := ((C123_decrypt_accepts lib pri c n e d k hpri hkey hk hk11).1 msg).1 h
  simp at h3; omega

/-- **C124.** With an accepted key of a key pair and a working random source, encryption fails exactly
for messages longer than `k - 11` bytes, with the error for that. -/
theorem C124_too_long (lib : Lib) (rnd : Nat → Option Bytes) (pub msg : Bytes) (n e d k : Nat)
    (hpub : IsPub lib pub n e) (hkey : KeyPair n e d) (hk : ByteLen n k) (hrnd : GoodPadding rnd) :
    ((rsaEncryptByBytes lib rnd msg pub).err ≠ none ↔ k < msg.length + 11) ∧
    (k < msg.length + 11 → rsaEncryptByBytes lib rnd msg pub = ⟨none, some .tooLong⟩) := by
  have hs := size_eq hk
  subst hs
  have h2 : size n < msg.length + 11 → rsaEncryptByBytes lib rnd msg pub = ⟨none, some .tooLong⟩ := by
    intro h
    rw [encryptByBytes_of hpub]
    unfold encryptPKCS1v15
    simp only [keyPair_checkPub hkey, Bool.not_true, Bool.false_eq_true, if_false]
    rw [if_pos h]
  refine ⟨⟨fun h => ?_, fun h => by rw [h2 h]; simp⟩, h2⟩
  refine Nat.lt_of_not_le fun hle => h ?_
  obtain ⟨ps, h1, h2, h3⟩ := hrnd (size n - msg.length - 3)
  obtain ⟨_, _, he⟩ := encrypt_eq hkey rnd msg ps hle h1 h2 h3
  rw [encryptByBytes_of hpub, he]

/-- **C124.** Equal ciphertexts under one key mean equal messages, whatever the paddings were. -/
theorem C124_injective (lib : Lib) (rnd rnd' : Nat → Option Bytes) (pub msg msg' c : Bytes) (n e d k : Nat)
    (hpub : IsPub lib pub n e) (hkey : KeyPair n e d) (hk : ByteLen n k)
    (hrnd : GoodPadding rnd) (hrnd' : GoodPadding rnd')
    (h : rsaEncryptByBytes lib rnd msg pub = ⟨some c, none⟩)
    (h' : rsaEncryptByBytes lib rnd' msg' pub = ⟨some c, none⟩) : msg = msg' := by
  have hl := (C124_too_long lib rnd pub msg n e d k hpub hkey hk hrnd).1
  have hl' := (C124_too_long lib rnd' pub msg' n e d k hpub hkey hk hrnd').1
  rw [h] at hl; rw [h'] at hl'
  simp at hl hl'
  -- a decoder that knows the private key
  let lib' : Lib := ⟨fun bs => some bs, fun b => .rsa n e, fun _ => some ⟨n, e, d⟩⟩
  have hp : IsPub lib' pub n e := ⟨pub, rfl, rfl⟩
  have hq : IsPri lib' pub n e d := ⟨pub, rfl, rfl⟩
  obtain ⟨c1, a1, _, a2⟩ := C121_rsa_roundtrip lib' rnd pub pub msg n e d k hp hq hkey hk hrnd (by omega)
  obtain ⟨c2, b1, _, b2⟩ := C121_rsa_roundtrip lib' rnd' pub pub msg' n e d k hp hq hkey hk hrnd' (by omega)
  rw [encryptByBytes_of hp] at a1 b1
  rw [encryptByBytes_of hpub] at h h'
  rw [h] at a1; rw [h'] at b1
  simp at a1 b1
  subst a1; subst b1
  rw [a2] at b2
  simpa using b2

/-- **C125.** Which key is used: the embedded one exactly for the empty path. A path that does not
exist or cannot be read is reported, and the embedded key is not used in its place. -/
theorem C125_which_key (lib : Lib) (fs : Fs) (rnd : Nat → Option Bytes) (dpub dpri msg : Bytes) (path : String) :
    (rsaEncrypt lib fs dpub rnd msg "" = rsaEncryptByBytes lib rnd msg dpub ∧
      rsaDecrypt lib fs dpri msg "" = rsaDecryptByBytes lib msg dpri) ∧
    (path ≠ "" →
      (∀ buf, fs.isExist path = true → fs.read path = some buf →
        rsaEncrypt lib fs dpub rnd msg path = rsaEncryptByBytes lib rnd msg buf ∧
        rsaDecrypt lib fs dpri msg path = rsaDecryptByBytes lib msg buf) ∧
      (fs.isExist path = false → rsaEncrypt lib fs dpub rnd msg path = ⟨none, some .notExist⟩ ∧
        rsaDecrypt lib fs dpri msg path = ⟨none, some .notExist⟩) ∧
      (fs.isExist path = true → fs.read path = none →
        rsaEncrypt lib fs dpub rnd msg path = ⟨none, some .io⟩ ∧
        rsaDecrypt lib fs dpri msg path = ⟨none, some .io⟩)) := by
  refine ⟨⟨by simp [rsaEncrypt, keyBytes], by simp [rsaDecrypt, keyBytes]⟩, fun hp => ⟨?_, ?_, ?_⟩⟩
  · intro buf h1 h2; simp [rsaEncrypt, rsaDecrypt, keyBytes, hp, h1, h2]
  · intro h1; simp [rsaEncrypt, rsaDecrypt, keyBytes, hp, h1]
  · intro h1 h2; simp [rsaEncrypt, rsaDecrypt, keyBytes, hp, h1, h2]

/-- **C125.** What is encrypted with the empty path can be read by everybody who has the source: the
embedded private key decrypts it, if the two embedded keys are a pair. -/
theorem C125_embedded_key (lib : Lib) (fs : Fs) (rnd : Nat → Option Bytes) (dpub dpri msg : Bytes) (n e d k : Nat)
    (hpub : IsPub lib dpub n e) (hpri : IsPri lib dpri n e d) (hkey : KeyPair n e d) (hk : ByteLen n k)
    (hrnd : GoodPadding rnd) (hlen : msg.length + 11 ≤ k) :
    ∃ c, rsaEncrypt lib fs dpub rnd msg "" = ⟨some c, none⟩ ∧ rsaDecrypt lib fs dpri c "" = ⟨some msg, none⟩ := by
  obtain ⟨c, h1, _, h2⟩ := C121_rsa_roundtrip lib rnd dpub dpri msg n e d k hpub hpri hkey hk hrnd hlen
  exact ⟨c, by simp [rsaEncrypt, keyBytes, h1], by simp [rsaDecrypt, keyBytes, h2]⟩

/-! ## The hypotheses can be met -/

/-- A key pair over the Mersenne primes 2^89 - 1 and 2^61 - 1, a modulus of 19 bytes. -/
def exN : Nat := 618970019642690137449562111 * 2305843009213693951

def exE : Nat := 65537

def exD : Nat := 740443132154395775117746638826656402702473

theorem prime89 : Nat.Prime 618970019642690137449562111 := by
  have h : mersenne 89 = 618970019642690137449562111 := by norm_num [mersenne]
  rw [← h]
  exact lucas_lehmer_sufficiency _ (by norm_num) (by norm_num)

theorem prime61 : Nat.Prime 2305843009213693951 := by
  have h : mersenne 61 = 2305843009213693951 := by norm_num [mersenne]
  rw [← h]
  exact lucas_lehmer_sufficiency _ (by norm_num) (by norm_num)

theorem exKey : KeyPair exN exE exD :=
  ⟨⟨_, _, prime89, prime61, by norm_num, by norm_num, by norm_num, rfl, by decide +kernel, by decide +kernel⟩,
    by decide +kernel, by decide +kernel, by decide +kernel⟩

theorem exLen : ByteLen exN 19 := ⟨by decide +kernel, by decide +kernel, by decide +kernel⟩

/-- PEM and DER replaced by something trivial: one byte tells the kind of the key. -/
def exLib : Lib :=
  ⟨fun b => if b = [] then none else some b, fun b => if b = [1] then .rsa exN exE else if b = [2] then .other else .bad,
    fun b => if b = [3] then some ⟨exN, exE, exD⟩ else none⟩

def exRnd : Nat → Option Bytes := fun m => some (List.replicate m 7)

theorem exRnd_good : GoodPadding exRnd := fun m => ⟨_, rfl, by simp, fun b hb => by
  rw [(List.mem_replicate.1 hb).2]; decide⟩

example : ∃ c, rsaEncryptByBytes exLib exRnd [104, 101, 108, 108, 111] [1] = ⟨some c, none⟩ ∧ c.length = 19 ∧
    rsaDecryptByBytes exLib c [3] = ⟨some [104, 101, 108, 108, 111], none⟩ :=
  C121_rsa_roundtrip exLib exRnd [1] [3] _ exN exE exD 19 ⟨[1], rfl, rfl⟩ ⟨[3], rfl, rfl⟩ exKey exLen exRnd_good
    (by decide)

/-- Nine bytes are too many for 19. -/
example : rsaEncryptByBytes exLib exRnd [1, 2, 3, 4, 5, 6, 7, 8, 9] [1] = ⟨none, some .tooLong⟩ :=
  (C124_too_long exLib exRnd [1] _ exN exE exD 19 ⟨[1], rfl, rfl⟩ exKey exLen exRnd_good).2 (by decide)

/-- A private key given as the public one, and a key of another type: nothing is reported. -/
example : rsaEncryptByBytes exLib exRnd [1] [3] = ⟨none, none⟩ ∧ rsaEncryptByBytes exLib exRnd [1] [2] = ⟨none, none⟩ :=
  ⟨rfl, rfl⟩

/-- Zeros before a ciphertext are of no account as long as they fit three words of 64 bits; six are too many. -/
example : ∃ c, rsaDecryptByBytes exLib (List.replicate 5 0 ++ c) [3] = ⟨some [104, 105], none⟩ ∧
    rsaDecryptByBytes exLib (List.replicate 6 0 ++ c) [3] = ⟨none, some .decryption⟩ := by
  refine ⟨((rsaEncryptByBytes exLib exRnd [104, 105] [1]).bytes.getD []), ?_, ?_⟩ <;> decide +kernel

/-- A ciphertext of nothing: zero decrypts to zero, which is no block. -/
example : rsaDecryptByBytes exLib [0] [3] = ⟨none, some .decryption⟩ := by decide +kernel

end Gofer.Props.Rsa
