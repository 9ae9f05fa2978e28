import Verif.Proof.DeflateHead
/-!
# Blocks and streams
-/
namespace Gofer.Inflate
open Gofer.Spec.Deflate

theorem low_append (a b : Bits) : low (a ++ b) = low a + 2 ^ a.length * low b := by
  induction a with
  | nil => simp [low]
  | cons x a ih => simp only [List.cons_append, low, ih, List.length_cons, Nat.pow_succ]; ring

theorem bitsOf_len (x : UInt8) : (bitsOf x).length = 8 := by simp [bitsOf]

theorem bits_cons (x : UInt8) (l : Bytes) : bits (x :: l) = bitsOf x ++ bits l := by simp [bits]

theorem bits_append (a b : Bytes) : bits (a ++ b) = bits a ++ bits b := by simp [bits]

theorem bits_len (l : Bytes) : (bits l).length = 8 * l.length := by
  induction l with
  | nil => rfl
  | cons x l ih => rw [bits_cons, List.length_append, ih, bitsOf_len, List.length_cons]; omega

theorem low_bitsOf (x : UInt8) : low (bitsOf x) = x.toNat := by
  have h : ∀ n < 256, low ((List.range 8).map (Nat.testBit n)) = n := by decide +kernel
  exact h x.toNat x.toNat_lt

theorem bitsOf_low (e : Bits) (h : e.length = 8) : bitsOf (UInt8.ofNat (low e)) = e := by
  have hlt := low_lt e
  rw [h] at hlt
  unfold bitsOf
  rw [UInt8.toNat_ofNat', Nat.mod_eq_of_lt hlt]
  match e, h with
  | [a, b, c, d, f, g, i, j], _ =>
    have : ∀ a b c d f g i j : Bool, (List.range 8).map (Nat.testBit (low [a, b, c, d, f, g, i, j])) = [a, b, c, d, f, g, i, j] := by decide +kernel
    exact this a b c d f g i j

theorem bits_inj {a b : Bytes} (h : bits a = bits b) : a = b := by
  induction a generalizing b with
  | nil =>
    cases b with
    | nil => rfl
    | cons y b => have := congrArg List.length h; simp [bits_len] at this
  | cons x a ih =>
    cases b with
    | nil => have := congrArg List.length h; simp [bits_len] at this
    | cons y b =>
      rw [bits_cons, bits_cons] at h
      obtain ⟨h1, h2⟩ := List.append_inj h (by rw [bitsOf_len, bitsOf_len])
      have := congrArg low h1
      rw [low_bitsOf, low_bitsOf] at this
      rw [ih h2, UInt8.toNat_inj.1 this]

theorem takeBytes_iff (n : Nat) (b : Bits) (d : Bytes) (r : Bits) : takeBytes n b = some (d, r) ↔ d.length = n ∧ b = bits d ++ r := by
  induction n generalizing b d with
  | zero =>
    simp only [takeBytes, Option.some.injEq, Prod.mk.injEq]
    constructor
    · rintro ⟨rfl, rfl⟩
      exact ⟨rfl, rfl⟩
    · rintro ⟨h1, h2⟩
      have : d = [] := List.eq_nil_of_length_eq_zero h1
      subst this
      exact ⟨rfl, h2⟩
  | succ n ih =>
    rw [takeBytes]
    constructor
    · intro h
      cases h1 : take 8 b with
      | none => rw [h1] at h; simp at h
      | some p =>
        obtain ⟨x, b1⟩ := p
        rw [h1] at h
        simp only [] at h
        obtain ⟨e, he, rfl, rfl⟩ := (take_iff _ _ _ _).1 h1
        cases h2 : takeBytes n b1 with
        | none => rw [h2] at h; simp at h
        | some p =>
          obtain ⟨l, b2⟩ := p
          rw [h2] at h
          simp only [Option.some.injEq, Prod.mk.injEq] at h
          obtain ⟨rfl, rfl⟩ := h
          obtain ⟨k1, rfl⟩ := (ih _ _).1 h2
          exact ⟨by simp [k1], by rw [bits_cons, bitsOf_low e he, List.append_assoc]⟩
    · rintro ⟨h1, rfl⟩
      cases d with
      | nil => simp at h1
      | cons x d =>
        rw [bits_cons, List.append_assoc, (take_iff 8 _ x.toNat (bits d ++ r)).2 ⟨bitsOf x, bitsOf_len x, rfl, (low_bitsOf x).symm⟩]
        simp only []
        rw [(ih (bits d ++ r) d).2 ⟨by simpa using h1, rfl⟩]
        simp

theorem takeBytes_len {n : Nat} {b : Bits} : (takeBytes n b = none) ↔ b.length < 8 * n := by
  induction n generalizing b with
  | zero => simp [takeBytes]
  | succ n ih =>
    rw [takeBytes]
    unfold take
    by_cases h : b.length < 8
    · rw [if_pos h]
      simp only [true_iff]
      omega
    · rw [if_neg h]
      simp only []
      have := ih (b := b.drop 8)
      rw [List.length_drop] at this
      cases h1 : takeBytes n (b.drop 8) with
      | none => simp only [true_iff]; have := this.1 h1; omega
      | some p => rw [h1] at this; simp at this ⊢; omega

/-- Sixteen bits are two bytes. -/
theorem two_bytes (n : Bits) (h : n.length = 16) : ∃ a b, n = bits [a, b] ∧ low n = a.toNat + b.toNat * 256 := by
  refine ⟨UInt8.ofNat (low (n.take 8)), UInt8.ofNat (low (n.drop 8)), ?_, ?_⟩
  · rw [bits_cons, bits_cons, bitsOf_low _ (by simp; omega), bitsOf_low _ (by simp; omega)]
    simp [bits]
  · have h1 := low_lt (n.take 8)
    have h2 := low_lt (n.drop 8)
    rw [List.length_take, h] at h1
    rw [List.length_drop, h] at h2
    have hs : low n = low (n.take 8) + 2 ^ 8 * low (n.drop 8) := by
      conv_lhs => rw [← List.take_append_drop 8 n]
      rw [low_append, List.length_take, h]
      rfl
    rw [UInt8.toNat_ofNat', UInt8.toNat_ofNat', Nat.mod_eq_of_lt (by simpa using h1), Nat.mod_eq_of_lt (by simpa using h2), hs]
    ring

theorem low_two (a b : UInt8) : low (bits [a, b]) = a.toNat + b.toNat * 256 := by
  rw [bits_cons, bits_cons, low_append, bitsOf_len, low_bitsOf]
  simp [bits, low_append, low_bitsOf, low]
  ring

theorem stored_read (o d : Bytes) (pad n n' r : Bits) (h8 : pad.length < 8) (hr : 8 ∣ r.length) (hn : n.length = 16) (hn' : n'.length = 16) (e : low n = d.length)
    (e' : low n' = 65535 - d.length) : dataBlock o (pad ++ (n ++ (n' ++ bits d)) ++ r) = (o ++ d, some r) := by
  obtain ⟨a, a', rfl, ha⟩ := two_bytes n hn
  obtain ⟨c, c', rfl, hc⟩ := two_bytes n' hn'
  obtain ⟨k, hk⟩ := hr
  unfold dataBlock
  have hm : (pad ++ (bits [a, a'] ++ (bits [c, c'] ++ bits d)) ++ r).length % 8 = pad.length := by
    simp only [List.length_append, bits_len, hk]
    simp only [List.length_cons, List.length_nil]
    omega
  have eb : pad ++ (bits [a, a'] ++ (bits [c, c'] ++ bits d)) ++ r = pad ++ (bits [a, a', c, c'] ++ (bits d ++ r)) := by simp [bits]
  simp only [hm]
  rw [eb, List.drop_left', (takeBytes_iff 4 _ [a, a', c, c'] (bits d ++ r)).2 ⟨rfl, rfl⟩]
  · simp only []
    rw [if_neg (by omega), (takeBytes_iff _ _ d r).2 ⟨by omega, rfl⟩]
  · rfl

theorem stored_sound {o o' : Bytes} {b r : Bits} (h : dataBlock o b = (o', some r)) : ∃ pad n n' d, b = pad ++ (n ++ (n' ++ bits d)) ++ r ∧ pad.length = b.length % 8 ∧
    n.length = 16 ∧ n'.length = 16 ∧ low n = d.length ∧ low n' = 65535 - d.length ∧ o' = o ++ d := by
  unfold dataBlock at h
  simp only [] at h
  split at h
  · rename_i a a' c c' b1 h1
    obtain ⟨_, hb⟩ := (takeBytes_iff _ _ _ _).1 h1
    by_cases hc : c.toNat + c'.toNat * 256 ≠ 65535 - (a.toNat + a'.toNat * 256)
    · rw [if_pos hc] at h; simp at h
    · rw [if_neg hc] at h
      split at h
      · rename_i d b2 h2
        simp only [Prod.mk.injEq, Option.some.injEq] at h
        obtain ⟨rfl, rfl⟩ := h
        obtain ⟨hd, rfl⟩ := (takeBytes_iff _ _ _ _).1 h2
        refine ⟨b.take (b.length % 8), bits [a, a'], bits [c, c'], d, ?_, ?_, by simp [bits_len], by simp [bits_len], by rw [low_two, hd], ?_, rfl⟩
        · conv_lhs => rw [← List.take_append_drop (b.length % 8) b, hb]
          simp [bits]
        · rw [List.length_take]; omega
        · rw [low_two, hd]; omega
      · simp at h
  · simp at h

theorem block_read {p : Nat} {o o' : Bytes} {b : Bits} (h : Block p o b o') (r : Bits) (h8 : 8 ∣ p + b.length + r.length) : block o (b ++ r) = (o', some r) := by
  cases h with
  | stored d pad n n' k1 k2 k3 k4 k5 k6 =>
    rw [block, List.append_assoc, (take_iff 2 _ 0 _).2 ⟨[false, false], rfl, rfl, rfl⟩]
    simp only []
    rw [if_pos trivial]
    refine stored_read o d pad n n' r k1 ?_ k3 k4 k5 k6
    simp only [List.length_append, bits_len, k3, k4, List.length_cons, List.length_nil] at h8
    omega
  | fixed _ b hb =>
    rw [block, List.append_assoc, (take_iff 2 _ 1 _).2 ⟨[true, false], rfl, rfl, rfl⟩]
    simp only []
    obtain ⟨h, e, hd, hf⟩ := fixedHuff_ok
    rw [if_neg (by omega), if_pos trivial, e]
    exact body_read hd hf reads_fixedD hb r _ (by simp; omega)
  | own _ h b L D hc hb =>
    rw [block, List.append_assoc, (take_iff 2 _ 2 _).2 ⟨[false, true], rfl, rfl, rfl⟩]
    simp only []
    obtain ⟨h1, h2, hr, hd, hf, hD⟩ := codes_read hc
    rw [if_neg (by omega), if_neg (by omega), if_pos trivial, List.append_assoc, hr]
    exact body_read hd hf hD hb r _ (by simp; omega)

theorem two_bits (e : Bits) (h : e.length = 2) : (low e = 0 → e = [false, false]) ∧ (low e = 1 → e = [true, false]) ∧ (low e = 2 → e = [false, true]) := by
  match e, h with
  | [a, b], _ => cases a <;> cases b <;> simp [low, bit]

theorem block_sound {p : Nat} {o o' : Bytes} {b r : Bits} (h : block o b = (o', some r)) (h8 : 8 ∣ p + b.length) : ∃ c, b = c ++ r ∧ Block p o c o' := by
  unfold block at h
  cases h1 : take 2 b with
  | none => rw [h1] at h; simp at h
  | some q =>
    obtain ⟨x, b1⟩ := q
    rw [h1] at h
    simp only [] at h
    obtain ⟨e, he, rfl, rfl⟩ := (take_iff _ _ _ _).1 h1
    obtain ⟨t0, t1, t2⟩ := two_bits e he
    by_cases e0 : low e = 0
    · rw [if_pos e0] at h
      obtain ⟨pad, n, n', d, hb, k1, k2, k3, k4, k5, rfl⟩ := stored_sound h
      refine ⟨[false, false] ++ (pad ++ (n ++ (n' ++ bits d))), by rw [t0 e0, List.append_assoc, ← hb], .stored p o d pad n n' (by omega) ?_ k2 k3 k4 k5⟩
      rw [List.length_append, he] at h8
      omega
    · rw [if_neg e0] at h
      by_cases e1 : low e = 1
      · rw [if_pos e1] at h
        obtain ⟨hh, ef, hd, hf⟩ := fixedHuff_ok
        rw [ef] at h
        simp only [] at h
        obtain ⟨c, rfl, hB⟩ := body_sound hd reads_fixedD _ _ _ _ _ h
        exact ⟨[true, false] ++ c, by rw [t1 e1, List.append_assoc], .fixed p o o' c hB⟩
      · rw [if_neg e1] at h
        by_cases e2 : low e = 2
        · rw [if_pos e2] at h
          cases hr : readHuffman b1 with
          | none => rw [hr] at h; simp at h
          | some q =>
            obtain ⟨g1, g2, b2⟩ := q
            rw [hr] at h
            simp only [] at h
            obtain ⟨L, D, hd, rfl, hc, d1, _, d2⟩ := codes_sound hr
            obtain ⟨c, rfl, hB⟩ := body_sound d1 d2 _ _ _ _ _ h
            exact ⟨[false, true] ++ (hd ++ c), by rw [t2 e2]; simp, .own p o o' hd c L D hc hB⟩
        · rw [if_neg e2] at h; simp at h

theorem block_len {p : Nat} {o o' : Bytes} {b : Bits} (h : Block p o b o') : 2 ≤ b.length := by
  cases h <;> simp

theorem blocks_cons (fuel : Nat) (o : Bytes) (final : Bool) (b : Bits) : blocks (fuel + 1) o (final :: b) = if (final :: b).length < 3 then (o, none) else
    match block o b with
    | (o, none) => (o, none)
    | (o, some b) => if final then (o, some b) else blocks fuel o b := rfl

theorem blocks_nil (fuel : Nat) (o : Bytes) : blocks fuel o [] = (o, none) := by
  cases fuel <;> rfl

theorem blocks_read {p : Nat} {o o' : Bytes} {b : Bits} (h : Blocks p o b o') (r : Bits) (fuel : Nat) (hf : b.length < fuel) (h8 : 8 ∣ p + b.length + r.length) :
    blocks fuel o (b ++ r) = (o', some r) := by
  induction h generalizing fuel with
  | last p o o' b hb =>
    obtain ⟨fuel, rfl⟩ : ∃ f, fuel = f + 1 := ⟨fuel - 1, by omega⟩
    have := block_len hb
    rw [List.cons_append, blocks_cons, if_neg (by simp; omega)]
    rw [block_read hb r (by simp at h8; omega)]
    simp
  | more p o o₁ o' b b' hb _ ih =>
    obtain ⟨fuel, rfl⟩ : ∃ f, fuel = f + 1 := ⟨fuel - 1, by omega⟩
    have := block_len hb
    simp only [List.length_cons, List.length_append] at h8 hf
    rw [List.cons_append, List.append_assoc, blocks_cons, if_neg (by simp; omega)]
    rw [block_read hb (b' ++ r) (by rw [List.length_append]; omega)]
    simp only [Bool.false_eq_true, if_false]
    exact ih fuel (by omega) (by omega)

theorem blocks_sound {p fuel : Nat} {o o' : Bytes} {b r : Bits} (h : blocks fuel o b = (o', some r)) (h8 : 8 ∣ p + b.length) : ∃ c, b = c ++ r ∧ Blocks p o c o' := by
  induction fuel generalizing p o b with
  | zero => simp [blocks] at h
  | succ fuel ih =>
    cases b with
    | nil => rw [blocks_nil] at h; simp at h
    | cons final b =>
      rw [blocks_cons] at h
      by_cases h3 : (final :: b).length < 3
      · rw [if_pos h3] at h; simp at h
      · rw [if_neg h3] at h
        cases hb : block o b with
        | mk o₁ q =>
          rw [hb] at h
          cases q with
          | none => simp at h
          | some b₁ =>
            simp only [] at h
            obtain ⟨c, rfl, hB⟩ := block_sound (p := p + 1) hb (by simp at h8; omega)
            cases final with
            | true =>
              simp only [if_true, Prod.mk.injEq, Option.some.injEq] at h
              obtain ⟨rfl, rfl⟩ := h
              exact ⟨true :: c, rfl, .last p o o₁ c hB⟩
            | false =>
              simp only [Bool.false_eq_true, if_false] at h
              obtain ⟨c', rfl, hB'⟩ := ih (p := p + 1 + c.length) h (by simp at h8; omega)
              exact ⟨false :: (c ++ c'), by simp, .more p o o₁ o' c c' hB hB'⟩

/-- What a flate reader accepts, and what it leaves. -/
theorem inflate_iff (z o rest : Bytes) : inflate z = (o, some rest) ↔ ∃ d, z = d ++ rest ∧ Deflated o d := by
  unfold inflate
  constructor
  · intro h
    cases hb : blocks ((bits z).length + 1) [] (bits z) with
    | mk o₁ q =>
      rw [hb] at h
      cases q with
      | none => simp at h
      | some b =>
        simp only [Prod.mk.injEq, Option.some.injEq] at h
        obtain ⟨rfl, rfl⟩ := h
        obtain ⟨c, hc, hB⟩ := blocks_sound (p := 0) hb (by rw [bits_len]; omega)
        have hl := congrArg List.length hc
        rw [bits_len, List.length_append] at hl
        refine ⟨z.take (z.length - b.length / 8), (List.take_append_drop _ _).symm, c, b.take (b.length % 8), ?_, by simp; omega, hB⟩
        have e : bits z = bits (z.take (z.length - b.length / 8)) ++ bits (z.drop (z.length - b.length / 8)) := by rw [← bits_append, List.take_append_drop]
        have e2 : bits z = (c ++ b.take (b.length % 8)) ++ b.drop (b.length % 8) := by rw [hc]; simp
        refine (List.append_inj (e.symm.trans e2) ?_).1
        simp only [bits_len, List.length_append, List.length_take]
        omega
  · rintro ⟨d, rfl, b, pad, hb, hp, hB⟩
    have hl := congrArg List.length hb
    rw [bits_len, List.length_append] at hl
    have e : bits (d ++ rest) = b ++ (pad ++ bits rest) := by rw [bits_append, hb, List.append_assoc]
    have hr : blocks ((bits (d ++ rest)).length + 1) [] (bits (d ++ rest)) = (o, some (pad ++ bits rest)) := by
      rw [e]
      refine blocks_read hB _ _ (by simp; omega) ?_
      simp only [List.length_append, bits_len]
      omega
    rw [hr]
    simp only [Prod.mk.injEq, true_and, Option.some.injEq]
    have : (d ++ rest).length - (pad ++ bits rest).length / 8 = d.length := by
      simp only [List.length_append, bits_len]
      omega
    rw [this]
    simp

end Gofer.Inflate
