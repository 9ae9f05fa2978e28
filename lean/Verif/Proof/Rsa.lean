import Verif.Spec.Rsa
import Verif.Model.Rsa
import Verif.Proof.Num
import Mathlib.FieldTheory.Finite.Basic
import Mathlib.Data.Nat.ModEq
import Mathlib.Data.Nat.ChineseRemainder

namespace Gofer.Rsa
open Gofer.Spec.Rsa Gofer.Spec.Num

theorem toNum_eq (bs : Bytes) : toNum bs = beValue bs := rfl

theorem powMod_eq (n b e : Nat) : powMod n b e = b ^ e % n := by
  induction e using Nat.strongRecOn generalizing b with
  | ind e ih =>
    rw [powMod]
    split
    · rename_i h; subst h; simp
    · rename_i h
      have hr := ih (e / 2) (by omega) (b * b % n)
      have h2 : (b * b % n) ^ (e / 2) % n = (b ^ (2 * (e / 2))) % n := by
        rw [← Nat.pow_mod, pow_mul]; congr 1; ring
      simp only [hr, h2]
      split
      · rename_i h1
        rw [Nat.mod_mul_mod, ← pow_succ]
        congr 2; omega
      · congr 2; omega

theorem ofNum_length (k v : Nat) : (ofNum k v).length = k := by
  induction k generalizing v with
  | zero => rfl
  | succ k ih => simp [ofNum, ih]

theorem toNum_ofNum (k v : Nat) (h : v < 256 ^ k) : toNum (ofNum k v) = v := by
  induction k generalizing v with
  | zero => simp at h; subst h; rfl
  | succ k ih =>
    have h1 : v / 256 < 256 ^ k := by
      apply Nat.div_lt_of_lt_mul; rw [pow_succ] at h; omega
    rw [ofNum, toNum_eq, Num.beValue_append, ← toNum_eq, ih _ h1]
    simp only [List.length_singleton, pow_one, Num.beValue_cons, List.length_nil, pow_zero, Num.beValue_nil]
    have : ((v % 256).toUInt8).toNat = v % 256 := by
      simp [Nat.toUInt8]
    rw [this]; omega

theorem ofNum_toNum (k : Nat) (bs : Bytes) (h : bs.length = k) : ofNum k (toNum bs) = bs := by
  apply Num.beValue_inj
  · rw [ofNum_length, h]
  · rw [← toNum_eq, ← toNum_eq, toNum_ofNum]
    rw [toNum_eq, ← h]; exact Num.beValue_lt bs

theorem lt_size (n : Nat) : n < 256 ^ size n := by
  unfold size bitLen
  split
  · rename_i h; subst h; simp
  · rename_i h
    have h1 : n < 2 ^ (n.log2 + 1) := Nat.lt_log2_self
    refine lt_of_lt_of_le h1 ?_
    rw [show (256 : Nat) = 2 ^ 8 from rfl, ← pow_mul]
    exact Nat.pow_le_pow_right (by omega) (by omega)

theorem size_le (n : Nat) (h : 0 < n) : 256 ^ (size n - 1) ≤ n := by
  unfold size bitLen
  rw [if_neg (by omega)]
  have h1 : 2 ^ n.log2 ≤ n := Nat.log2_self_le (by omega)
  refine le_trans ?_ h1
  rw [show (256 : Nat) = 2 ^ 8 from rfl, ← pow_mul]
  exact Nat.pow_le_pow_right (by omega) (by omega)

theorem fermat (p x k : Nat) (hp : p.Prime) (h2 : p ≠ 2) (hk : k % (p - 1) = 1 % (p - 1)) :
    x ^ k ≡ x [MOD p] := by
  have hp2 := hp.two_le
  have h1 : 1 % (p - 1) = 1 := Nat.mod_eq_of_lt (by omega)
  rw [h1] at hk
  have hkk : k = (p - 1) * (k / (p - 1)) + 1 := by
    have := Nat.div_add_mod k (p - 1); omega
  haveI := Fact.mk hp
  rw [← ZMod.natCast_eq_natCast_iff]
  push_cast
  by_cases hx : (x : ZMod p) = 0
  · rw [hx, hkk, pow_succ, mul_zero]
  · rw [hkk, pow_succ, pow_mul, ZMod.pow_card_sub_one_eq_one hx, one_pow, one_mul]

theorem keyPair_pow {n e d : Nat} (h : KeyPair n e d) (x : Nat) (hx : x < n) : x ^ (e * d) % n = x := by
  obtain ⟨p, q, hp, hq, hne, hp2, hq2, rfl, h1, h2⟩ := h.primes
  have := (Nat.modEq_and_modEq_iff_modEq_mul ((Nat.coprime_primes hp hq).2 hne)).1
    ⟨fermat p x _ hp hp2 h1, fermat q x _ hq hq2 h2⟩
  rw [Nat.ModEq] at this
  rw [this, Nat.mod_eq_of_lt hx]

theorem keyPair_odd {n e d : Nat} (h : KeyPair n e d) : n % 2 = 1 := by
  obtain ⟨p, q, hp, hq, hne, hp2, hq2, rfl, h1, h2⟩ := h.primes
  have a := hp.eq_two_or_odd
  have b := hq.eq_two_or_odd
  rw [Nat.mul_mod]
  rcases a with a | a
  · exact absurd a hp2
  · rcases b with b | b
    · exact absurd b hq2
    · rw [a, b]

theorem keyPair_checkPub {n e d : Nat} (h : KeyPair n e d) : checkPub e = true := by
  simp [checkPub, h.e_low]; exact h.e_high

theorem scan_false (i : Nat) (bs : Bytes) (index : Nat) : scan i bs index false = (index, false) := by
  induction bs generalizing i with
  | nil => rfl
  | cons b bs ih => simp [scan, ih]

theorem scan_nonzero (i : Nat) (bs : Bytes) (index : Nat) (h : ∀ b ∈ bs, b ≠ 0) :
    scan i bs index true = (index, true) := by
  induction bs generalizing i with
  | nil => rfl
  | cons b bs ih =>
    have hb : (b == 0) = false := by simpa using h b (by simp)
    simp [scan, hb, ih _ (fun x hx => h x (by simp [hx]))]

theorem scan_app (i : Nat) (ps rest : Bytes) (index : Nat) (h : ∀ b ∈ ps, b ≠ 0) :
    scan i (ps ++ 0 :: rest) index true = (i + ps.length, false) := by
  induction ps generalizing i with
  | nil => simp [scan, scan_false]
  | cons b ps ih =>
    have hb : (b == 0) = false := by simpa using h b (by simp)
    simp [scan, hb, ih _ (fun x hx => h x (by simp [hx]))]; omega

theorem split_zero (bs : Bytes) : (∀ b ∈ bs, b ≠ 0) ∨ ∃ ps rest, (∀ b ∈ ps, b ≠ 0) ∧ bs = ps ++ 0 :: rest := by
  induction bs with
  | nil => left; simp
  | cons b bs ih =>
    by_cases hb : b = 0
    · right; exact ⟨[], bs, by simp, by simp [hb]⟩
    · rcases ih with ih | ⟨ps, rest, h1, h2⟩
      · left; intro x hx; rcases List.mem_cons.1 hx with rfl | hx
        · exact hb
        · exact ih x hx
      · right; refine ⟨b :: ps, rest, ?_, by simp [h2]⟩
        intro x hx; rcases List.mem_cons.1 hx with rfl | hx
        · exact hb
        · exact h1 x hx

theorem unpad_block {ps msg em : Bytes} (h : Block ps msg em) : unpad em = ⟨some msg, none⟩ := by
  obtain ⟨h1, h2, rfl⟩ := h
  have : List.drop (ps.length) (ps ++ 0 :: msg) = 0 :: msg := by simp
  simp only [unpad, List.drop_succ_cons, List.drop_zero, scan_app _ _ _ _ h2]
  rw [if_pos (by simp; omega)]
  congr 2
  rw [show 2 + ps.length = ps.length + 1 + 1 from by omega]
  simp only [List.drop_succ_cons]
  rw [List.drop_append]
  simp

theorem unpad_err (em : Bytes) (h : ∀ ps msg, ¬ Block ps msg em) : unpad em = ⟨none, some .decryption⟩ := by
  unfold unpad
  rcases em with _ | ⟨a, _ | ⟨b, r⟩⟩
  · rfl
  · simp [scan]
  · rcases split_zero r with h0 | ⟨ps, msg, h0, rfl⟩
    · simp only [List.drop_succ_cons, List.drop_zero, scan_nonzero _ _ _ h0]
      rw [if_neg (by simp)]
    · simp only [List.drop_succ_cons, List.drop_zero, scan_app _ _ _ _ h0]
      rw [if_neg]
      intro hc
      simp at hc
      obtain ⟨⟨rfl, rfl⟩, hc⟩ := hc
      exact h ps msg ⟨by omega, h0, rfl⟩

theorem unpad_iff (em msg : Bytes) : unpad em = ⟨some msg, none⟩ ↔ ∃ ps, Block ps msg em := by
  constructor
  · intro h
    by_cases hb : ∃ ps msg, Block ps msg em
    · obtain ⟨ps, m, hb⟩ := hb
      rw [unpad_block hb] at h
      simp at h; subst h; exact ⟨ps, hb⟩
    · rw [unpad_err em (fun ps msg hx => hb ⟨ps, msg, hx⟩)] at h
      simp at h
  · rintro ⟨ps, h⟩; exact unpad_block h

theorem unpad_cases (em : Bytes) : (∃ msg, unpad em = ⟨some msg, none⟩) ∨ unpad em = ⟨none, some .decryption⟩ := by
  by_cases hb : ∃ ps msg, Block ps msg em
  · obtain ⟨ps, m, hb⟩ := hb; exact Or.inl ⟨m, unpad_block hb⟩
  · exact Or.inr (unpad_err em (fun ps msg hx => hb ⟨ps, msg, hx⟩))

/-- A block that fits the modulus is below it. -/
theorem block_lt {n : Nat} {ps msg em : Bytes} (hn : 0 < n) (h : Block ps msg em) (hl : em.length = size n) :
    toNum em < n := by
  obtain ⟨h1, h2, rfl⟩ := h
  refine lt_of_lt_of_le ?_ (size_le n hn)
  rw [toNum_eq, Num.beValue_cons]
  simp only [UInt8.toNat_zero, zero_mul, zero_add]
  refine lt_of_lt_of_le (Num.beValue_lt _) ?_
  rw [← hl]; simp

theorem limbs (n : Nat) : (bitLen n + 63) / 64 = (size n + 7) / 8 := by unfold size; omega

theorem decrypt_eq {n e d : Nat} (h : KeyPair n e d) (hk : 11 ≤ size n) (c : Bytes) :
    decryptPKCS1v15 ⟨n, e, d⟩ c =
      if 8 * ((size n + 7) / 8) < c.length ∨ n ≤ beValue c then ⟨none, some .decryption⟩ else unpad (ofNum (size n) (beValue c ^ d % n)) := by
  have h1 := keyPair_odd h
  unfold decryptPKCS1v15
  simp only [keyPair_checkPub h, Bool.not_true, Bool.false_eq_true, if_false, powMod_eq, toNum_eq, overflows, limbs]
  rw [if_neg (by omega), if_neg (by omega)]
  by_cases hx : 8 * ((size n + 7) / 8) < c.length <;> by_cases hy : n ≤ beValue c <;> simp [hx, hy]

theorem decrypt_iff {n e d : Nat} (h : KeyPair n e d) (hk : 11 ≤ size n) (c msg : Bytes) :
    decryptPKCS1v15 ⟨n, e, d⟩ c = ⟨some msg, none⟩ ↔
      c.length ≤ 8 * ((size n + 7) / 8) ∧ ∃ ps em, Block ps msg em ∧ em.length = size n ∧ beValue c = beValue em ^ e % n := by
  have hodd := keyPair_odd h
  have hn : 0 < n := by omega
  rw [decrypt_eq h hk]
  constructor
  · intro hd
    split at hd
    · simp at hd
    · rename_i hc
      obtain ⟨ps, hb⟩ := (unpad_iff _ _).1 hd
      refine ⟨by omega, ps, _, hb, ofNum_length _ _, ?_⟩
      have hlt : beValue c ^ d % n < n := Nat.mod_lt _ hn
      rw [← toNum_eq (ofNum _ _), toNum_ofNum _ _ (lt_trans hlt (lt_size n)), ← Nat.pow_mod, ← pow_mul,
        mul_comm d e, keyPair_pow h _ (by omega)]
  · rintro ⟨hcl, ps, em, hb, hl, hc⟩
    have hem := block_lt hn hb hl
    rw [toNum_eq] at hem
    rw [if_neg (by rw [hc]; exact not_or.2 ⟨by omega, not_le.2 (Nat.mod_lt _ hn)⟩), hc, ← Nat.pow_mod, ← pow_mul,
      keyPair_pow h _ hem, ← toNum_eq, ofNum_toNum _ _ hl]
    exact unpad_block hb

theorem encrypt_eq {n e d : Nat} (h : KeyPair n e d) (rnd : Nat → Option Bytes) (msg ps : Bytes)
    (hl : msg.length + 11 ≤ size n) (hr : rnd (size n - msg.length - 3) = some ps)
    (hps : ps.length = size n - msg.length - 3) (hnz : ∀ b ∈ ps, b ≠ 0) :
    Block ps msg ([0, 2] ++ ps ++ [0] ++ msg) ∧ ([0, 2] ++ ps ++ [0] ++ msg).length = size n ∧
    encryptPKCS1v15 rnd n e msg =
      ⟨some (ofNum (size n) (beValue ([0, 2] ++ ps ++ [0] ++ msg) ^ e % n)), none⟩ := by
  have hodd := keyPair_odd h
  have hb : Block ps msg ([0, 2] ++ ps ++ [0] ++ msg) := ⟨by omega, hnz, by simp⟩
  have hlen : ([0, 2] ++ ps ++ [0] ++ msg).length = size n := by simp; omega
  refine ⟨hb, hlen, ?_⟩
  have := block_lt (by omega) hb hlen
  unfold encryptPKCS1v15
  simp only [keyPair_checkPub h, Bool.not_true, Bool.false_eq_true, if_false, hr]
  rw [if_neg (by omega)]
  unfold rawEncrypt
  rw [if_neg (by omega), if_neg (by omega), powMod_eq, toNum_eq]

theorem size_eq {n k : Nat} (h : ByteLen n k) : size n = k := by
  obtain ⟨h0, h1, h2⟩ := h
  have hn : 0 < n := lt_of_lt_of_le (by positivity) h1
  have a := size_le n hn
  have b := lt_size n
  have c : size n - 1 < k := (Nat.pow_lt_pow_iff_right (by omega)).1 (lt_of_le_of_lt a h2)
  have d : k - 1 < size n := (Nat.pow_lt_pow_iff_right (by omega)).1 (lt_of_le_of_lt h1 b)
  omega

end Gofer.Rsa
