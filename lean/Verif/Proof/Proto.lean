import Verif.Model.Proto
import Verif.Proof.Json
import Mathlib.Data.List.Forall2

namespace Gofer.Proto
open Gofer.Spec.Proto

/-! ### varints -/

theorem toUInt8_small (n : Nat) (h : n < 256) : n.toUInt8.toNat = n := by
  simp [Nat.toUInt8, UInt8.toNat_ofNat']; omega

theorem takeVarint_put (f : Nat) : ∀ (n : Nat) (r : Bytes), n < 2 ^ (7 * f + 1) →
    takeVarintGo f (putVarintGo f n ++ r) = some (n, r) := by
  induction f with
  | zero =>
    intro n r h
    have h2 : n < 2 := by simpa using h
    have : n.toUInt8 < 2 := by
      rw [UInt8.lt_iff_toNat_lt, toUInt8_small n (by omega)]; exact h2
    simp [putVarintGo, takeVarintGo, this, toUInt8_small n (by omega)]
  | succ f ih =>
    intro n r h
    rw [putVarintGo]
    by_cases hn : n < 128
    · have : n.toUInt8 < 128 := by
        rw [UInt8.lt_iff_toNat_lt, toUInt8_small n (by omega)]; exact hn
      simp [hn, takeVarintGo, this, toUInt8_small n (by omega)]
    · have h1 : ¬ (n % 128 + 128).toUInt8 < 128 := by
        rw [UInt8.lt_iff_toNat_lt, toUInt8_small _ (by omega)]; simp
      have h2 : n / 128 < 2 ^ (7 * f + 1) := by
        rw [Nat.div_lt_iff_lt_mul (by omega)]
        have : (2 : Nat) ^ (7 * (f + 1) + 1) = 2 ^ (7 * f + 1) * 128 := by
          rw [show 7 * (f + 1) + 1 = (7 * f + 1) + 7 by omega, Nat.pow_add]
        omega
      simp only [hn, if_false, List.cons_append, takeVarintGo, h1, ih _ r h2, toUInt8_small _ (show n % 128 + 128 < 256 by omega)]
      congr 2; omega

theorem takeVarint_putVarint (n : Nat) (r : Bytes) (h : n < 2 ^ 64) : takeVarint (putVarint n ++ r) = some (n, r) :=
  takeVarint_put 9 n r h

theorem putVarint_ne_nil (n : Nat) : putVarint n ≠ [] := by
  simp only [putVarint, putVarintGo]; split <;> simp

/-- What was read does not depend on what follows. -/
theorem takeVarintGo_some (f : Nat) : ∀ (bs : Bytes) (n : Nat) (r : Bytes), takeVarintGo f bs = some (n, r) →
    n < 2 ^ (7 * f + 1) ∧ ∃ p, p ≠ [] ∧ bs = p ++ r ∧ ∀ z, takeVarintGo f (p ++ z) = some (n, z) := by
  induction f with
  | zero =>
    intro bs n r h
    cases bs with
    | nil => simp [takeVarintGo] at h
    | cons b bs =>
      simp only [takeVarintGo] at h
      split at h
      · rename_i hb
        simp only [Option.some.injEq, Prod.mk.injEq] at h
        obtain ⟨rfl, rfl⟩ := h
        exact ⟨by rw [UInt8.lt_iff_toNat_lt] at hb; simpa using hb, [b], by simp, rfl, fun z => by simp [takeVarintGo, hb]⟩
      · simp at h
  | succ f ih =>
    intro bs n r h
    cases bs with
    | nil => simp [takeVarintGo] at h
    | cons b bs =>
      have e7 : (2 : Nat) ^ (7 * (f + 1) + 1) = 128 * 2 ^ (7 * f + 1) := by
        rw [show 7 * (f + 1) + 1 = 7 + (7 * f + 1) by omega, Nat.pow_add]
      have hp : 0 < 2 ^ (7 * f + 1) := Nat.pow_pos (by omega)
      simp only [takeVarintGo] at h
      split at h
      · rename_i hb
        simp only [Option.some.injEq, Prod.mk.injEq] at h
        obtain ⟨rfl, rfl⟩ := h
        refine ⟨?_, [b], by simp, rfl, fun z => by simp [takeVarintGo, hb]⟩
        rw [UInt8.lt_iff_toNat_lt] at hb
        have : b.toNat < 128 := by simpa using hb
        rw [e7]; omega
      · rename_i hb
        split at h
        · simp at h
        · rename_i m r' e
          simp only [Option.some.injEq, Prod.mk.injEq] at h
          obtain ⟨rfl, rfl⟩ := h
          obtain ⟨h1, p, hp0, rfl, h3⟩ := ih bs m r' e
          refine ⟨?_, b :: p, by simp, rfl, fun z => by simp [takeVarintGo, hb, h3]⟩
          have := b.toNat_lt
          rw [e7]; omega

theorem takeVarint_some {bs : Bytes} {n : Nat} {r : Bytes} (h : takeVarint bs = some (n, r)) :
    n < 2 ^ 64 ∧ ∃ p, p ≠ [] ∧ bs = p ++ r ∧ ∀ z, takeVarint (p ++ z) = some (n, z) :=
  takeVarintGo_some 9 bs n r h

/-- The varints of the specification are read. -/
theorem takeVarint_spec {n : Nat} {p : Bytes} (h : Varint n p) : ∀ (f : Nat), n < 2 ^ (7 * f + 1) → p.length ≤ f + 1 →
    ∀ z, takeVarintGo f (p ++ z) = some (n, z) := by
  induction h with
  | last b hb =>
    intro f hn _ z
    cases f with
    | zero =>
      have : b < 2 := by rw [UInt8.lt_iff_toNat_lt]; simpa using hn
      simp [takeVarintGo, this]
    | succ f => simp [takeVarintGo, hb]
  | more b n r hb hv ih =>
    intro f hn hl z
    have hnb : ¬ b < 128 := by rw [UInt8.lt_iff_toNat_lt]; rw [UInt8.le_iff_toNat_le] at hb; omega
    cases f with
    | zero =>
      exfalso
      cases hv <;> simp at hl
    | succ f =>
      have e7 : (2 : Nat) ^ (7 * (f + 1) + 1) = 128 * 2 ^ (7 * f + 1) := by
        rw [show 7 * (f + 1) + 1 = 7 + (7 * f + 1) by omega, Nat.pow_add]
      have := ih f (by rw [e7] at hn; omega) (by simp at hl; omega) z
      simp [takeVarintGo, hnb, this]

/-- The varint written is one, and no other is shorter. -/
theorem putVarint_spec (f : Nat) : ∀ n, n < 2 ^ (7 * f + 1) → Varint n (putVarintGo f n) ∧
    ∀ p, Varint n p → p.length ≤ (putVarintGo f n).length → p = putVarintGo f n := by
  induction f with
  | zero =>
    intro n h
    have h2 : n < 2 := by simpa using h
    have e := toUInt8_small n (by omega)
    have hl : n.toUInt8 < 128 := by rw [UInt8.lt_iff_toNat_lt, e]; simp; omega
    refine ⟨?_, ?_⟩
    · have := Varint.last n.toUInt8 hl
      rwa [e] at this
    · intro p hp hlen
      simp only [putVarintGo, List.length_cons, List.length_nil] at hlen ⊢
      cases hp with
      | last b hb => simp
      | more b m r hb hv =>
        exfalso
        cases hv <;> simp at hlen
  | succ f ih =>
    intro n h
    have e7 : (2 : Nat) ^ (7 * (f + 1) + 1) = 128 * 2 ^ (7 * f + 1) := by
      rw [show 7 * (f + 1) + 1 = 7 + (7 * f + 1) by omega, Nat.pow_add]
    rw [putVarintGo]
    by_cases hn : n < 128
    · have e := toUInt8_small n (by omega)
      have hl : n.toUInt8 < 128 := by rw [UInt8.lt_iff_toNat_lt, e]; simpa using hn
      simp only [hn, if_true]
      refine ⟨?_, ?_⟩
      · have := Varint.last n.toUInt8 hl
        rwa [e] at this
      · intro p hp hlen
        cases hp with
        | last b hb => simp
        | more b m r hb hv =>
          exfalso
          cases hv <;> simp at hlen
    · simp only [hn, if_false]
      have e := toUInt8_small (n % 128 + 128) (by omega)
      obtain ⟨h1, h2⟩ := ih (n / 128) (by omega)
      have hge : 128 ≤ (n % 128 + 128).toUInt8 := by rw [UInt8.le_iff_toNat_le, e]; simp
      refine ⟨?_, ?_⟩
      · have := Varint.more (n % 128 + 128).toUInt8 (n / 128) _ hge h1
        rw [e] at this
        have e2 : n % 128 + 128 - 128 + 128 * (n / 128) = n := by omega
        rwa [e2] at this
      · intro p hp hlen
        cases hp with
        | last b hb =>
          exfalso
          rw [UInt8.lt_iff_toNat_lt] at hb
          simp at hb
          omega
        | more b m r hb hv =>
          have hb' := b.toNat_lt
          rw [UInt8.le_iff_toNat_le] at hb
          have hb2 : 128 ≤ b.toNat := by simpa using hb
          have em : m = (b.toNat - 128 + 128 * m) / 128 := by omega
          have eb : b.toNat = (b.toNat - 128 + 128 * m) % 128 + 128 := by omega
          have := h2 r (by rw [← em]; exact hv) (by simpa using hlen)
          rw [← this]
          congr 1
          apply UInt8.toNat_inj.mp
          rw [e]; exact eb

theorem putVarint_unique {n : Nat} {p : Bytes} (h : n < 2 ^ 64) (hp : Varint n p)
    (hm : ∀ q, Varint n q → p.length ≤ q.length) : p = putVarint n :=
  (putVarint_spec 9 n h).2 p hp (hm _ (putVarint_spec 9 n h).1)

/-! ### little endian -/

theorem putLE_length (n : Nat) : ∀ x, (putLE n x).length = n := by
  induction n with
  | zero => intro x; rfl
  | succ n ih => intro x; simp [putLE, ih]

theorem getLE_putLE (n : Nat) : ∀ x, x < 256 ^ n → getLE (putLE n x) = x := by
  induction n with
  | zero => intro x h; simp at h; simp [putLE, getLE, h]
  | succ n ih =>
    intro x h
    rw [putLE, getLE, ih _ (by rw [Nat.pow_succ] at h; omega), toUInt8_small _ (by omega)]
    omega

theorem getLE_lt (bs : Bytes) : getLE bs < 256 ^ bs.length := by
  induction bs with
  | nil => simp [getLE]
  | cons b r ih =>
    have := b.toNat_lt
    rw [getLE, List.length_cons, Nat.pow_succ]; omega

/-! ### UTF-8 -/

theorem validGo_text (f : Nat) : ∀ s : Bytes, s.length ≤ f → (validGo f s = true ↔ Spec.Json.Text s) := by
  induction f with
  | zero =>
    intro s h
    have : s = [] := List.length_eq_zero_iff.mp (by omega)
    subst this
    simp [validGo, Spec.Json.Text.nil]
  | succ f ih =>
    intro s h
    cases s with
    | nil => simp [validGo, Spec.Json.Text.nil]
    | cons b s =>
      simp only [List.length_cons] at h
      rw [validGo]
      by_cases hb : b < 128
      · rw [if_pos hb, ih s (by omega)]
        constructor
        · intro ht
          have := Spec.Json.Text.cons b.toNat s (Json.utf8_ascii b hb).1 ht
          rwa [(Json.utf8_ascii b hb).2] at this
        · intro ht
          generalize e : b :: s = q at ht
          cases ht with
          | nil => simp at e
          | cons c r hc hr =>
            by_cases h128 : c < 128
            · obtain ⟨b', _, e2, _⟩ := Json.utf8_small c h128
              rw [e2] at e
              simp at e
              rw [e.2]; exact hr
            · exfalso
              have hh := Json.utf8_high c hc (by omega)
              have hl := Json.utf8_length c (by omega)
              cases hu : Spec.Json.utf8 c with
              | nil => rw [hu] at hl; simp at hl
              | cons b' u =>
                rw [hu] at e
                simp at e
                have := hh b' (by rw [hu]; simp)
                rw [← e.1] at this
                rw [UInt8.lt_iff_toNat_lt] at hb
                simp at hb
                omega
      · rw [if_neg hb]
        rcases Json.decodeRune_cases b s hb with e | ⟨c, r, hc, h128, e1, e2⟩
        · rw [if_pos (by rw [e])]
          constructor
          · intro h; simp at h
          · intro ht
            exfalso
            generalize e3 : b :: s = q at ht
            cases ht with
            | nil => simp at e3
            | cons c r hc hr =>
              by_cases h128 : c < 128
              · obtain ⟨b', hb', e2, _⟩ := Json.utf8_small c h128
                rw [e2] at e3
                simp at e3
                rw [e3.1] at hb
                exact hb hb'
              · have := Json.decodeRune_utf8 c hc (by omega) r
                rw [← e3, e] at this
                have hl := Json.utf8_length c (by omega)
                simp only [Prod.mk.injEq] at this
                omega
        · have hl := Json.utf8_length c h128
          rw [e2]
          rw [if_neg (by simp only; omega)]
          simp only
          have e4 : (b :: s).drop (Spec.Json.utf8 c).length = r := by rw [e1]; simp
          have e5 : (b :: s).length = (Spec.Json.utf8 c).length + r.length := by rw [e1]; simp
          simp only [List.length_cons] at e5
          rw [e4, ih r (by omega)]
          constructor
          · intro ht
            rw [e1]; exact Spec.Json.Text.cons c r hc ht
          · intro ht
            rw [e1] at ht
            generalize e6 : Spec.Json.utf8 c ++ r = q at ht
            cases ht with
            | nil => simp at e6; rw [e6.1] at hl; simp at hl
            | cons c' r' hc' hr' =>
              by_cases h128' : c' < 128
              · exfalso
                obtain ⟨b', hb', e7, _⟩ := Json.utf8_small c' h128'
                rw [e7, ← e1] at e6
                simp at e6
                rw [e6.1] at hb
                exact hb hb'
              · have h1 := Json.decodeRune_utf8 c' hc' (by omega) r'
                have h2 := Json.decodeRune_utf8 c hc h128 r
                rw [e6, h1] at h2
                simp only [Prod.mk.injEq] at h2
                rw [h2.1] at e6
                have := List.append_cancel_left e6
                rw [this]; exact hr'

theorem valid_text (s : Bytes) : valid s = true ↔ Spec.Json.Text s := validGo_text _ s (Nat.le_refl _)

/-! ### numbers -/

theorem zigzag_bit (x : BitVec 64) (i : Nat) :
    (zigzag x).getLsbD i = (decide (i < 64) && ((decide (0 < i) && x.getLsbD (i - 1)) ^^ x.msb)) := by
  simp only [zigzag, BitVec.getLsbD_xor, BitVec.getLsbD_shiftLeft, BitVec.getLsbD_sshiftRight]
  by_cases h : i < 64
  · by_cases h0 : i = 0
    · subst h0
      simp [BitVec.msb_eq_getLsbD_last]
    · have : ¬ 63 + i < 64 := by omega
      simp [h, this, show ¬ 64 ≤ i by omega, show ¬ i < 1 by omega, show 0 < i by omega]
  · simp [h, show 64 ≤ i by omega]

theorem neg_bit (b : Bool) (i : Nat) (h : i < 64) :
    (-(if b then (1 : BitVec 64) else 0)).getLsbD i = b := by
  cases b
  · simp
  · have : (-(1 : BitVec 64)) = BitVec.allOnes 64 := by decide
    rw [if_pos rfl, this, BitVec.getLsbD_allOnes]; simp [h]

theorem unzigzag_zigzag (x : BitVec 64) : unzigzag (zigzag x) = x := by
  have h1 : zigzag x &&& 1 = if x.msb then (1 : BitVec 64) else 0 := by
    apply BitVec.eq_of_getLsbD_eq
    intro i hi
    rw [BitVec.getLsbD_and, zigzag_bit]
    have e : ∀ i, (1 : BitVec 64).getLsbD i = decide (i = 0) := by
      intro i; rw [show (1 : BitVec 64) = 1#64 from rfl, BitVec.getLsbD_one]; simp
    by_cases h0 : i = 0
    · subst h0; cases x.msb <;> simp
    · rw [e]
      cases x.msb <;> simp [h0]
  rw [unzigzag, h1]
  apply BitVec.eq_of_getLsbD_eq
  intro i hi
  rw [BitVec.getLsbD_xor, neg_bit _ _ hi, BitVec.getLsbD_ushiftRight, zigzag_bit]
  by_cases h : 1 + i < 64
  · simp [h, show 0 < 1 + i by omega]
  · have : i = 63 := by omega
    subst this
    simp [BitVec.msb_eq_getLsbD_last]

theorem low_bits (i : Nat) : (0xFFFFFFFF : BitVec 64).getLsbD i = decide (i < 32) := by
  have : (0xFFFFFFFF : BitVec 64) = (BitVec.allOnes 32).setWidth 64 := by decide
  rw [this, BitVec.getLsbD_setWidth, BitVec.getLsbD_allOnes]
  by_cases h : i < 32
  · simp [h]; omega
  · simp [h]

theorem sext_bit (y : BitVec 32) (i : Nat) :
    (y.signExtend 64).getLsbD i = (decide (i < 64) && if i < 32 then y.getLsbD i else y.msb) := by
  rw [BitVec.getLsbD_signExtend]

theorem setWidth_sext (y : BitVec 32) : (y.signExtend 64).setWidth 32 = y := by
  apply BitVec.eq_of_getLsbD_eq
  intro i hi
  rw [BitVec.getLsbD_setWidth, sext_bit]
  simp [hi]; omega

theorem ofWire_toWire (k : VarKind) (x : BitVec 64) (h : k.Fits x) : ofWire k (toWire k x) = x := by
  cases k <;> simp only [ofWire, toWire, VarKind.Fits] at h ⊢
  · exact h.symm
  · apply BitVec.eq_of_toNat_eq
    simp; omega
  · have e : zigzag x &&& 0xFFFFFFFF = zigzag x := by
      apply BitVec.eq_of_getLsbD_eq
      intro i hi
      rw [BitVec.getLsbD_and, low_bits, zigzag_bit]
      by_cases h32 : i < 32
      · simp [h32]
      · have e1 : x.getLsbD (i - 1) = x.msb := by
          rw [h, BitVec.msb_eq_getLsbD_last, sext_bit, sext_bit]
          have : i - 1 < 64 := by omega
          simp only [this, decide_true, Bool.true_and]
          by_cases h31 : i - 1 < 32
          · have : i - 1 = 31 := by omega
            simp [this, BitVec.msb_eq_getLsbD_last]
          · simp [h31]
        have : 0 < i := by omega
        simp [h32, e1, this]
    rw [e, unzigzag_zigzag]; exact h.symm
  · exact unzigzag_zigzag x
  · rcases h with rfl | rfl <;> simp

theorem ofWire_fits (k : VarKind) (v : BitVec 64) : k.Fits (ofWire k v) := by
  cases k <;> simp only [ofWire, VarKind.Fits]
  · rw [setWidth_sext]
  · simp; omega
  · rw [setWidth_sext]
  · split <;> simp

/-! ### fields in the bytes -/

theorem takeScalar_some {wt : Nat} {bs : Bytes} {w : Wire} {r : Bytes} (h : takeScalar wt bs = some (w, r)) :
    w.type = wt ∧ wt ≠ 3 ∧ ∃ p, bs = p ++ r ∧ ∀ z, takeScalar wt (p ++ z) = some (w, z) := by
  unfold takeScalar at h
  split at h
  · rename_i e
    subst e
    split at h
    · simp at h
    · rename_i n r' e
      simp only [Option.some.injEq, Prod.mk.injEq] at h
      obtain ⟨rfl, rfl⟩ := h
      obtain ⟨_, p, _, rfl, h3⟩ := takeVarint_some e
      exact ⟨rfl, by simp, p, rfl, fun z => by simp [takeScalar, h3]⟩
  split at h
  · rename_i e
    subst e
    split at h
    · simp at h
    · rename_i hl
      simp only [Option.some.injEq, Prod.mk.injEq] at h
      obtain ⟨rfl, rfl⟩ := h
      refine ⟨rfl, by simp, bs.take 8, (List.take_append_drop 8 bs).symm, fun z => ?_⟩
      have hl' : (bs.take 8).length = 8 := by simp; omega
      have e1 : (bs.take 8 ++ z).take 8 = bs.take 8 := by
        rw [List.take_append_of_le_length (by omega), List.take_of_length_le (by omega)]
      have e2 : (bs.take 8 ++ z).drop 8 = z := by
        rw [List.drop_append_of_le_length (by omega), List.drop_of_length_le (by omega)]; rfl
      simp only [takeScalar, List.length_append, hl', e1, e2]
      simp
  split at h
  · rename_i e
    subst e
    split at h
    · simp at h
    · rename_i n r' e
      split at h
      · simp at h
      · rename_i hl
        simp only [Option.some.injEq, Prod.mk.injEq] at h
        obtain ⟨rfl, rfl⟩ := h
        obtain ⟨_, p, _, rfl, h3⟩ := takeVarint_some e
        refine ⟨rfl, by simp, p ++ r'.take n, by simp, fun z => ?_⟩
        have hl' : (r'.take n).length = n := by simp; omega
        have e1 : (r'.take n ++ z).take n = r'.take n := by
          rw [List.take_append_of_le_length (by omega), List.take_of_length_le (by omega)]
        have e2 : (r'.take n ++ z).drop n = z := by
          rw [List.drop_append_of_le_length (by omega), List.drop_of_length_le (by omega)]; rfl
        simp only [takeScalar, List.append_assoc, h3, e1, e2, List.length_append, hl']
        simp
  split at h
  · rename_i e
    subst e
    split at h
    · simp at h
    · rename_i hl
      simp only [Option.some.injEq, Prod.mk.injEq] at h
      obtain ⟨rfl, rfl⟩ := h
      refine ⟨rfl, by simp, bs.take 4, (List.take_append_drop 4 bs).symm, fun z => ?_⟩
      have hl' : (bs.take 4).length = 4 := by simp; omega
      have e1 : (bs.take 4 ++ z).take 4 = bs.take 4 := by
        rw [List.take_append_of_le_length (by omega), List.take_of_length_le (by omega)]
      have e2 : (bs.take 4 ++ z).drop 4 = z := by
        rw [List.drop_append_of_le_length (by omega), List.drop_of_length_le (by omega)]; rfl
      simp only [takeScalar, List.length_append, hl', e1, e2]
      simp
  · simp at h

theorem skipGroup_some (f : Nat) : ∀ (d num : Nat) (bs r : Bytes), skipGroup f d num bs = some r →
    ∃ p, p ≠ [] ∧ bs = p ++ r ∧ ∀ f' z, p.length ≤ f' → skipGroup f' d num (p ++ z) = some z := by
  induction f with
  | zero => intro d num bs r h; simp [skipGroup] at h
  | succ f ih =>
    intro d num bs r h
    simp only [skipGroup] at h
    split at h
    · simp at h
    rename_i tag r1 e
    obtain ⟨_, p, hp, rfl, h3⟩ := takeVarint_some e
    have hp1 : 1 ≤ p.length := by
      cases p with
      | nil => exact absurd rfl hp
      | cons _ _ => simp
    split at h
    · simp at h
    rename_i hr
    split at h
    · rename_i h4
      split at h
      · rename_i hn
        simp only [Option.some.injEq] at h
        subst h
        refine ⟨p, hp, rfl, fun f' z hf => ?_⟩
        obtain ⟨f', rfl⟩ : ∃ g, f' = g + 1 := ⟨f' - 1, by omega⟩
        simp only [skipGroup, h3]
        rw [if_neg hr, if_pos h4, if_pos hn]
      · simp at h
    rename_i h4
    split at h
    · rename_i h5
      split at h
      · simp at h
      rename_i d
      split at h
      · simp at h
      rename_i r2 e2
      obtain ⟨p2, hp2, rfl, h6⟩ := ih _ _ _ _ e2
      obtain ⟨p3, hp3, rfl, h7⟩ := ih _ _ _ _ h
      refine ⟨p ++ (p2 ++ p3), by simp [hp], by simp, fun f' z hf => ?_⟩
      obtain ⟨f', rfl⟩ : ∃ g, f' = g + 1 := ⟨f' - 1, by simp at hf; omega⟩
      simp only [List.length_append] at hf
      simp only [skipGroup, List.append_assoc, h3]
      rw [if_neg hr, if_neg h4, if_pos h5, h6 f' (p3 ++ z) (by omega)]
      exact h7 f' z (by omega)
    · rename_i h5
      split at h
      · simp at h
      rename_i w r2 e2
      obtain ⟨_, _, p2, rfl, h6⟩ := takeScalar_some e2
      obtain ⟨p3, hp3, rfl, h7⟩ := ih _ _ _ _ h
      refine ⟨p ++ (p2 ++ p3), by simp [hp], by simp, fun f' z hf => ?_⟩
      obtain ⟨f', rfl⟩ : ∃ g, f' = g + 1 := ⟨f' - 1, by simp at hf; omega⟩
      simp only [List.length_append] at hf
      simp only [skipGroup, List.append_assoc, h3]
      rw [if_neg hr, if_neg h4, if_neg h5, h6 (p3 ++ z)]
      exact h7 f' z (by omega)

theorem takeValue_some {num wt : Nat} {bs : Bytes} {w : Wire} {r : Bytes} (h : takeValue num wt bs = some (w, r)) :
    w.type = wt ∧ ∃ p, bs = p ++ r ∧ ∀ z, takeValue num wt (p ++ z) = some (w, z) := by
  unfold takeValue at h
  split at h
  · rename_i e
    subst e
    split at h
    · simp at h
    · rename_i r' e
      simp only [Option.some.injEq, Prod.mk.injEq] at h
      obtain ⟨rfl, rfl⟩ := h
      obtain ⟨p, _, rfl, h3⟩ := skipGroup_some _ _ _ _ _ e
      exact ⟨rfl, p, rfl, fun z => by rw [takeValue, if_pos rfl, h3 _ z (by simp)]⟩
  · rename_i e
    obtain ⟨h1, h2, p, rfl, h3⟩ := takeScalar_some h
    exact ⟨h1, p, rfl, fun z => by simp [takeValue, e, h3]⟩

/-- A tag and a value that can be read. -/
theorem takeField_of {num wt : Nat} {p : Bytes} {w : Wire} (h1 : 1 ≤ num) (h2 : num < 2 ^ 29) (h3 : w.type = wt)
    (hw : wt < 8) (h4 : ∀ z, takeValue num wt (p ++ z) = some (w, z)) (z : Bytes) :
    takeField (putTag num wt ++ (p ++ z)) = some (⟨num, w, p⟩, z) := by
  have e1 : (8 * num + wt) / 8 = num := by omega
  have e2 : (8 * num + wt) % 8 = wt := by omega
  rw [takeField, putTag, takeVarint_putVarint _ _ (by omega)]
  simp only [e1, e2]
  rw [if_neg (by omega), h4 z]
  simp

theorem takeField_some {bs : Bytes} {r : Rec} {rest : Bytes} (h : takeField bs = some (r, rest)) :
    (1 ≤ r.num ∧ r.num < 2 ^ 29 ∧ r.wire.type < 8 ∧ ∀ z, takeValue r.num r.wire.type (r.raw ++ z) = some (r.wire, z)) ∧
    ∃ p, p ≠ [] ∧ bs = p ++ rest ∧ ∀ z, takeField (p ++ z) = some (r, z) := by
  unfold takeField at h
  split at h
  · simp at h
  rename_i tag r1 e
  split at h
  · simp at h
  rename_i hr
  split at h
  · simp at h
  rename_i w r' e2
  simp only [Option.some.injEq, Prod.mk.injEq] at h
  obtain ⟨rfl, rfl⟩ := h
  obtain ⟨_, p, hp, rfl, h3⟩ := takeVarint_some e
  obtain ⟨h5, p2, rfl, h6⟩ := takeValue_some e2
  have e3 : (p2 ++ r').take ((p2 ++ r').length - r'.length) = p2 := by simp
  rw [e3]
  refine ⟨⟨by simp only; omega, by simp only; omega, by simp only [h5]; omega, by simpa only [h5] using h6⟩,
    p ++ p2, by simp [hp], by simp, fun z => ?_⟩
  simp only [takeField, List.append_assoc, h3]
  rw [if_neg hr, h6]
  simp

theorem recordsGo_fuel (n : Nat) : ∀ (bs : Bytes) (f g : Nat), bs.length ≤ n → bs.length ≤ f → bs.length ≤ g →
    recordsGo f bs = recordsGo g bs := by
  induction n with
  | zero =>
    intro bs f g h _ _
    have : bs = [] := List.length_eq_zero_iff.mp (by omega)
    subst this
    cases f <;> cases g <;> rfl
  | succ n ih =>
    intro bs f g h hf hg
    cases bs with
    | nil => cases f <;> cases g <;> rfl
    | cons b bs =>
      simp only [List.length_cons] at h hf hg
      obtain ⟨f, rfl⟩ : ∃ k, f = k + 1 := ⟨f - 1, by omega⟩
      obtain ⟨g, rfl⟩ : ∃ k, g = k + 1 := ⟨g - 1, by omega⟩
      simp only [recordsGo]
      cases e : takeField (b :: bs) with
      | none => rfl
      | some x =>
        obtain ⟨r, rest⟩ := x
        obtain ⟨_, p, hp, e2, _⟩ := takeField_some e
        have hl : bs.length + 1 = p.length + rest.length := by
          have := congrArg List.length e2
          simpa using this
        have hp1 : 1 ≤ p.length := by
          cases p with
          | nil => exact absurd rfl hp
          | cons _ _ => simp
        simp only
        rw [ih rest f g (by omega) (by omega) (by omega)]

theorem records_eq (bs : Bytes) (f : Nat) (h : bs.length ≤ f) : recordsGo f bs = records bs :=
  recordsGo_fuel _ bs f _ (Nat.le_refl _) h (Nat.le_refl _)

theorem records_nil : records [] = some [] := rfl

theorem records_step {bs : Bytes} {r : Rec} {rest : Bytes} (h : takeField bs = some (r, rest)) :
    records bs = (records rest).map (r :: ·) := by
  obtain ⟨_, p, hp, e2, _⟩ := takeField_some h
  cases bs with
  | nil => simp at e2; exact absurd e2.1 hp
  | cons b bs =>
    have hl : bs.length + 1 = p.length + rest.length := by
      have := congrArg List.length e2
      simpa using this
    have hp1 : 1 ≤ p.length := by
      cases p with
      | nil => exact absurd rfl hp
      | cons _ _ => simp
    rw [records, List.length_cons, recordsGo, h]
    simp only
    rw [records_eq rest _ (by omega)]
    cases records rest <;> rfl

theorem records_none {bs : Bytes} (hn : bs ≠ []) (h : takeField bs = none) : records bs = none := by
  cases bs with
  | nil => exact absurd rfl hn
  | cons b bs => rw [records, List.length_cons, recordsGo, h]

theorem records_cases {bs : Bytes} {rs : List Rec} (h : records bs = some rs) :
    (bs = [] ∧ rs = []) ∨ ∃ r rest rs', takeField bs = some (r, rest) ∧ records rest = some rs' ∧ rs = r :: rs' := by
  cases bs with
  | nil => left; simp [records, recordsGo] at h; exact ⟨rfl, h⟩
  | cons b bs =>
    right
    cases e : takeField (b :: bs) with
    | none => rw [records_none (by simp) e] at h; simp at h
    | some x =>
      obtain ⟨r, rest⟩ := x
      rw [records_step e] at h
      cases e2 : records rest with
      | none => rw [e2] at h; simp at h
      | some rs' =>
        rw [e2] at h
        simp at h
        exact ⟨r, rest, rs', rfl, e2, h.symm⟩

theorem records_append {p : Bytes} {rs : List Rec} (h : records p = some rs) (q : Bytes) :
    records (p ++ q) = (records q).map (rs ++ ·) := by
  induction rs generalizing p with
  | nil =>
    rcases records_cases h with ⟨rfl, _⟩ | ⟨_, _, _, _, _, e⟩
    · simp
    · simp at e
  | cons r rs ih =>
    rcases records_cases h with ⟨_, e⟩ | ⟨r', rest, rs', e1, e2, e3⟩
    · simp at e
    · simp only [List.cons.injEq] at e3
      obtain ⟨rfl, rfl⟩ := e3
      obtain ⟨_, p', _, rfl, h3⟩ := takeField_some e1
      rw [List.append_assoc, records_step (h3 (rest ++ q)), ih e2]
      cases records q <;> simp

end Gofer.Proto
