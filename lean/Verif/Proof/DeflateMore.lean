import Verif.Proof.DeflateCut
/-!
# Streams that exist: stored data, flushed data, and data that is as compressed as can be
-/
namespace Gofer.Inflate
open Gofer.Spec.Deflate

/-! ## No stream begins another -/

theorem deflated_prefix {d d' z z' r r' : Bytes} (h : Deflated d z) (h' : Deflated d' z') (e : z ++ r = z' ++ r') : d = d' ∧ z = z' ∧ r = r' := by
  have h1 := (inflate_iff (z ++ r) d r).2 ⟨z, rfl, h⟩
  have h2 := (inflate_iff (z ++ r) d' r').2 ⟨z', e, h'⟩
  rw [h1] at h2
  simp only [Prod.mk.injEq, Option.some.injEq] at h2
  obtain ⟨rfl, rfl⟩ := h2
  exact ⟨rfl, List.append_cancel_right e, rfl⟩

theorem zlib_prefix {d d' z z' r r' : Bytes} (h : Zlib d z) (h' : Zlib d' z') (e : z ++ r = z' ++ r') : d = d' ∧ z = z' := by
  obtain ⟨hh, dd, s, rfl, k1, k2, k3⟩ := h
  obtain ⟨hh', dd', s', rfl, k1', k2', k3'⟩ := h'
  rw [List.append_assoc hh, List.append_assoc hh'] at e
  have e1 := (zlibHeader_iff (hh ++ (dd ++ s ++ r)) _).2 ⟨hh, rfl, k1⟩
  have e2 := (zlibHeader_iff (hh ++ (dd ++ s ++ r)) _).2 ⟨hh', e, k1'⟩
  rw [e1, Option.some.injEq] at e2
  rw [e2] at e
  have eh := List.append_cancel_right e
  rw [List.append_assoc, List.append_assoc] at e2
  obtain ⟨rfl, rfl, e3⟩ := deflated_prefix k2 k2' e2
  have := (List.append_inj e3 (by rw [big_len k3, big_len k3'])).1
  exact ⟨rfl, by rw [eh, this]⟩

theorem member_prefix {d d' m m' t t' : Bytes} (h : Member d m) (h' : Member d' m') (e : m ++ t = m' ++ t') : d = d' ∧ m = m' ∧ t = t' := by
  obtain ⟨z, r, h1, _, _, h4, _, _, h7, _⟩ := member_read h t
  obtain ⟨z', r', k1, _, _, k4, _, _, k7, _⟩ := member_read h' t'
  rw [← e, h1, Option.some.injEq] at k1
  subst k1
  rw [h4] at k4
  simp only [Prod.mk.injEq, Option.some.injEq] at k4
  obtain ⟨rfl, rfl⟩ := k4
  rw [h7] at k7
  subst k7
  exact ⟨rfl, List.append_cancel_right e, rfl⟩

theorem gzip_append {d d' z z' : Bytes} (h : Gzip d z) (h' : Gzip d' z') : Gzip (d ++ d') (z ++ z') := by
  induction h with
  | one d m hm => exact .more _ _ _ _ hm h'
  | more d₁ d₂ m z hm _ ih => rw [List.append_assoc, List.append_assoc]; exact .more _ _ _ _ hm ih

theorem member_ne {d m : Bytes} (h : Member d m) : m ≠ [] := gzip_len (.one _ _ h)

theorem gzip_split {d e z t : Bytes} (h : Gzip d z) (h' : Gzip e (z ++ t)) : (t = [] ∧ e = d) ∨ ∃ d', Gzip d' t ∧ e = d ++ d' := by
  induction h generalizing e with
  | one d m hm =>
    generalize hw : m ++ t = w at h'
    cases h' with
    | one _ _ hm' =>
      obtain ⟨h1, _, h3⟩ := member_prefix (t := t) (t' := []) hm hm' (by rw [hw, List.append_nil])
      exact .inl ⟨h3, h1.symm⟩
    | more d₁ d₂ m₁ z₁ hm' hz =>
      obtain ⟨h1, _, h3⟩ := member_prefix hm hm' hw
      exact .inr ⟨d₂, h3 ▸ hz, by rw [h1]⟩
  | more d₁ d₂ m z hm hz ih =>
    rw [List.append_assoc] at h'
    generalize hw : m ++ (z ++ t) = w at h'
    cases h' with
    | one _ _ hm' =>
      obtain ⟨_, _, h3⟩ := member_prefix (t := z ++ t) (t' := []) hm hm' (by rw [hw, List.append_nil])
      exact absurd (List.append_eq_nil_iff.1 h3).1 (gzip_len hz)
    | more e₁ e₂ m₁ z₁ hm' hz' =>
      obtain ⟨rfl, _, h3⟩ := member_prefix hm hm' hw
      subst h3
      rcases ih hz' with ⟨h1, rfl⟩ | ⟨d', h1, rfl⟩
      · exact .inl ⟨h1, rfl⟩
      · exact .inr ⟨d', h1, by simp⟩

/-! ## Flushed streams -/

theorem open_read {p : Nat} {o o' : Bytes} {b : Bits} (h : Open p o b o') (fuel : Nat) (hf : b.length < fuel) (h8 : 8 ∣ p + b.length) : blocks fuel o b = (o', none) := by
  induction h generalizing fuel with
  | none p o => exact blocks_nil fuel o
  | more p o o₁ o' b r hb _ ih =>
    obtain ⟨fuel, rfl⟩ : ∃ f, fuel = f + 1 := ⟨fuel - 1, by omega⟩
    have := block_len hb
    simp only [List.length_cons, List.length_append] at h8 hf
    rw [blocks_cons, if_neg (by simp; omega), block_read hb r (by omega)]
    simp only [Bool.false_eq_true, if_false]
    exact ih fuel (by omega) (by omega)

theorem flushed_read {data z : Bytes} (h : Flushed data z) : inflate z = (data, none) := by
  unfold inflate
  rw [open_read h _ (by omega) (by rw [bits_len]; omega)]

/-! ## Stored data -/

theorem sixteen (n : Nat) (h : n < 65536) : ∃ a b : UInt8, low (bits [a, b]) = n := by
  refine ⟨UInt8.ofNat (n % 256), UInt8.ofNat (n / 256), ?_⟩
  rw [low_two, UInt8.toNat_ofNat', UInt8.toNat_ofNat']
  omega

theorem big_exists (n : Nat) (h : n < 2 ^ 32) : ∃ s, Big n s := by
  refine ⟨_, UInt8.ofNat (n / 16777216), UInt8.ofNat (n / 65536 % 256), UInt8.ofNat (n / 256 % 256), UInt8.ofNat (n % 256), rfl, ?_⟩
  simp only [UInt8.toNat_ofNat']
  omega

theorem stored_block (p : Nat) (hp : 8 ∣ p) (final : Bool) (o d : Bytes) (hd : d.length < 65536) : ∃ h : Bytes, h.length = 5 ∧ ∃ b,
    bits (h ++ d) = final :: b ∧ Block (p + 1) o b (o ++ d) := by
  obtain ⟨a, a', ha⟩ := sixteen d.length hd
  obtain ⟨c, c', hc⟩ := sixteen (65535 - d.length) (by omega)
  refine ⟨[if final then 1 else 0, a, a', c, c'], rfl, _, ?_, .stored (p + 1) o d (List.replicate 5 false) (bits [a, a']) (bits [c, c']) (by simp) (by simp; omega) (by simp [bits_len])
    (by simp [bits_len]) ha hc⟩
  rw [bits_append, bits_cons]
  have : bitsOf (if final then 1 else 0) = final :: ([false, false] ++ List.replicate 5 false) := by cases final <;> decide
  rw [this]
  simp [bits]

theorem stored_exists (n : Nat) (data : Bytes) (hn : data.length ≤ 65535 * n) (p : Nat) (hp : 8 ∣ p) (o : Bytes) :
    ∃ z : Bytes, Blocks p o (bits z) (o ++ data) ∧ z.length ≤ data.length + 5 * (n + 1) := by
  induction n generalizing data p o with
  | zero =>
    have : data = [] := List.eq_nil_of_length_eq_zero (by omega)
    subst this
    obtain ⟨h, hl, b, hb, hB⟩ := stored_block p hp true o [] (by simp)
    exact ⟨h ++ [], hb ▸ .last p o _ b hB, by simp; omega⟩
  | succ n ih =>
    obtain ⟨h, hl, b, hb, hB⟩ := stored_block p hp false o (data.take 65535) (by rw [List.length_take]; omega)
    have hbl := congrArg List.length hb
    rw [bits_len, List.length_cons] at hbl
    obtain ⟨z, hz, hzl⟩ := ih (data.drop 65535) (by rw [List.length_drop]; omega) (p + 1 + b.length) (by omega) (o ++ data.take 65535)
    refine ⟨h ++ data.take 65535 ++ z, ?_, ?_⟩
    · rw [bits_append, hb]
      have := Blocks.more p o _ _ b (bits z) hB hz
      rwa [List.append_assoc o, List.take_append_drop] at this
    · simp only [List.length_append, List.length_take, List.length_drop] at hzl ⊢
      omega

theorem deflated_exists (data : Bytes) : ∃ z, Deflated data z ∧ z.length ≤ data.length + 5 * (data.length / 65535 + 2) := by
  obtain ⟨z, h, hl⟩ := stored_exists (data.length / 65535 + 1) data (by omega) 0 (by simp) []
  exact ⟨z, ⟨bits z, [], by simp, by simp, h⟩, by omega⟩

theorem zhead_default : ZHead [120, 156] := ⟨120, 156, [], rfl, by decide, by decide, by decide, by decide⟩

theorem ghead_plain : GHead [31, 139, 8, 0, 0, 0, 0, 0, 0, 255] := by
  refine ⟨0, 0, 0, 0, 0, 0, 255, [], [], [], [], rfl, ?_, ?_, ?_, ?_⟩
  · unfold Extra; rw [if_neg (by decide)]
  · unfold Name; rw [if_neg (by decide)]
  · unfold Name; rw [if_neg (by decide)]
  · unfold HeadSum; rw [if_neg (by decide)]

theorem adler_lt (d : Bytes) : adler d < 2 ^ 32 := by
  unfold adler
  omega

theorem zlib_of {d z : Bytes} (h : Deflated d z) : ∃ s, s.length = 4 ∧ Zlib d ([120, 156] ++ (z ++ s)) := by
  obtain ⟨s, hs⟩ := big_exists (adler d) (adler_lt d)
  exact ⟨s, big_len hs, _, z, s, rfl, zhead_default, h, hs⟩

theorem gzip_of {d z : Bytes} (h : Deflated d z) : ∃ s, s.length = 8 ∧ Member d ([31, 139, 8, 0, 0, 0, 0, 0, 0, 255] ++ (z ++ s)) := by
  obtain ⟨s, hs⟩ := big_exists (Gofer.Crc32.crc32 d).toNat (BitVec.isLt _)
  obtain ⟨l, hl⟩ := big_exists (d.length % 2 ^ 32) (Nat.mod_lt _ (by simp))
  have h1 := big_len hs
  have h2 := big_len hl
  refine ⟨s.reverse ++ l.reverse, by simp; omega, _, z, s.reverse, l.reverse, rfl, ghead_plain, h, ?_, ?_⟩
  · unfold Little; rwa [List.reverse_reverse]
  · unfold Little; rwa [List.reverse_reverse]

/-! ## Zeros -/

/-- Codes of one bit for copies of 258 bytes from one byte before, as the header of a block. -/
def tight : Bits :=
  [true, false, true, true, true, false, false, false, false, false, false, true, true, true, false, false, false, false, false, false, true, false, false, false, false, false, false,
   false, false, false, false, false, false, false, false, false, false, false, false, false, false, false, false, false, false, false, false, false, false, false, false, false, false,
   false, false, false, false, false, false, false, true, false, false, false, false, false, true, false, true, true, false, true, true, true, true, true, true, true, false, false, true,
   false, true, false, true, true, true, true, false, true, false, false, false, true, false, false, true, false, true, false]

theorem tight_codes : ∃ L D, Codes L D tight ∧ Code L 285 [false] ∧ Code L 0 [true, false] ∧ Code L 256 [true, true] ∧ Code D 0 [false] := by
  have h : readHuffman tight = some (⟨2, [(2, 2, 0), (2, 3, 256), (1, 0, 285)]⟩, ⟨1, [(1, 0, 0)]⟩, []) := by decide +kernel
  obtain ⟨L, D, hd, e, hc, d1, _, d2⟩ := codes_sound h
  rw [List.append_nil] at e
  subst e
  refine ⟨L, D, hc, ?_, ?_, ?_, ?_⟩
  · rw [code_iff, ← d1.1]; decide
  · rw [code_iff, ← d1.1]; decide
  · rw [code_iff, ← d1.1]; decide
  · obtain ⟨c, k, e⟩ := (d2 [false] 0 []).1 (by decide)
    rw [List.append_nil] at e
    exact e ▸ k

theorem zeros_body {L D : List Nat} (h1 : Code L 285 [false]) (h2 : Code L 256 [true, true]) (h3 : Code D 0 [false]) (n m : Nat) :
    Body L D (List.replicate (m + 1) 0) (List.replicate (2 * n) false ++ [true, true]) (List.replicate (m + 1 + 258 * n) 0) := by
  induction n generalizing m with
  | zero => exact .stop _ _ h2
  | succ n ih =>
    have hc : Copied (List.replicate (m + 1) 0) 258 1 (List.replicate (m + 258 + 1) 0) := by
      refine ⟨⟨List.replicate 258 0, ?_⟩, by simp, ?_⟩
      · rw [List.replicate_append_replicate]
      · intro i hi hi'
        simp only [List.length_replicate] at hi hi'
        rw [List.getElem?_replicate, List.getElem?_replicate, if_pos hi', if_pos (by omega)]
    have := Body.copy (L := L) (D := D) (List.replicate (m + 1) 0) _ _ [false] [] [false] [] _ 28 0 258 0 1 0 h1 (by decide) rfl h3 (by decide) rfl (by simp [low])
      (by simpa [low] using hc) (ih (m + 258))
    have e1 : List.replicate (2 * (n + 1)) false ++ [true, true] = [false] ++ ([] ++ ([false] ++ ([] ++ (List.replicate (2 * n) false ++ [true, true])))) := by
      have : 2 * (n + 1) = 2 * n + 1 + 1 := by omega
      rw [this, List.replicate_succ, List.replicate_succ]
      rfl
    have e2 : m + 1 + 258 * (n + 1) = m + 258 + 1 + 258 * n := by omega
    rw [e1, e2]
    exact this

/-- A stream of `k + 14` bytes. -/
def zerosStream (k : Nat) : Bytes := [237, 192, 129, 0, 0, 0, 0, 128, 160, 253, 169, 23, 169] ++ (List.replicate k 0 ++ [6])

theorem bits_zeros (k : Nat) : bits (List.replicate k 0) = List.replicate (8 * k) false := by
  induction k with
  | zero => rfl
  | succ k ih =>
    rw [List.replicate_succ, bits_cons, ih]
    have : bitsOf 0 = List.replicate 8 false := by decide
    rw [this, List.replicate_append_replicate]
    congr 1
    omega

theorem zeros_deflated (k : Nat) : Deflated (List.replicate (1032 * k + 1) 0) (zerosStream k) := by
  obtain ⟨L, D, hc, h1, h2, h3, h4⟩ := tight_codes
  have hb := Body.lit (L := L) (D := D) [] _ [true, false] _ 0 h2 (zeros_body h1 h3 h4 (4 * k) 0)
  have e1 : 0 + 1 + 258 * (4 * k) = 1032 * k + 1 := by omega
  have e2 : 2 * (4 * k) = 8 * k := by omega
  rw [e1, e2] at hb
  refine ⟨_, List.replicate 5 false, ?_, by simp, .last 0 [] _ _ (.own 1 [] _ tight _ L D hc hb)⟩
  unfold zerosStream
  rw [bits_append, bits_append, bits_zeros]
  have k1 : bits [237, 192, 129, 0, 0, 0, 0, 128, 160, 253, 169, 23, 169] = true :: ([false, true] ++ tight) ++ [true] := by decide +kernel
  have k2 : bits [6] = [false, true, true] ++ List.replicate 5 false := by decide
  have k3 : List.replicate (8 * k) false ++ [false] = [false] ++ List.replicate (8 * k) false := by
    rw [← List.replicate_succ']
    rfl
  have k4 : List.replicate (8 * k) false ++ bits [6] = [false] ++ List.replicate (8 * k) false ++ ([true, true] ++ List.replicate 5 false) := by
    rw [k2, ← k3]
    simp
  rw [k1, k4]
  simp

end Gofer.Inflate
