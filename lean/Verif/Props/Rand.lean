import Verif.Proof.Rand

/-! # `RandUint` and `RandInt64Strict`: properties C132–C134 -/
namespace Gofer.Props.Rand
open Gofer.Rand Gofer.Spec.Num Gofer.Num

/-- A generator delivers 63-bit numbers. -/
def Gen63 (gen : Nat → Nat → Nat) : Prop := ∀ s k, gen s k < 2 ^ 63

theorem toInt_pos {i : UInt64} (h0 : 0 < i.toNat) (h1 : i.toNat < 2 ^ 63) : i.toBitVec.toInt = i.toNat := by
  rw [BitVec.toInt_eq_toNat_of_lt]
  · rfl
  · have : i.toBitVec.toNat = i.toNat := rfl
    rw [this]; omega

theorem toInt_neg {i : UInt64} (h1 : ¬ (0 < i.toNat ∧ i.toNat < 2 ^ 63)) : i.toBitVec.toInt ≤ 0 := by
  have e : i.toBitVec.toNat = i.toNat := rfl
  have := i.toNat_lt
  rw [BitVec.toInt_eq_toNat_cond, e]
  split <;> omega

/-- The two cases of `Intn`. -/
theorem intn_ok {f : Nat → Nat} (hf : ∀ k, f k < 2 ^ 63) {n fuel r : Nat} (h0 : 0 < n) (h1 : n < 2 ^ 63) :
    intn f n fuel = .ok r ↔
      if n ≤ 2 ^ 31 - 1 then
        ∃ k, k < fuel ∧ f k / 2 ^ 32 % n = r ∧ Acc (2 ^ 31) n (f k / 2 ^ 32) ∧ ∀ j < k, ¬ Acc (2 ^ 31) n (f j / 2 ^ 32)
      else ∃ k, k < fuel ∧ f k % n = r ∧ Acc (2 ^ 63) n (f k) ∧ ∀ j < k, ¬ Acc (2 ^ 63) n (f j) := by
  unfold intn
  rw [if_neg (by omega)]
  by_cases h : n ≤ 2 ^ 31 - 1
  · rw [if_pos (by omega), if_pos h, Int.toNat_natCast]
    exact boundedN_ok h0 (by omega) (e := 31) rfl (fun k => by have := hf k; omega)
  · rw [if_neg (by omega), if_neg h, Int.toNat_natCast]
    exact boundedN_ok h0 (by omega) (e := 63) rfl hf

/-- C132. `RandUint(i)` panics exactly for `i = 0` and `i ≥ 2^63`; otherwise what it returns is below `i`. -/
theorem C132_range (gen : Nat → Nat → Nat) (hg : Gen63 gen) (seed : BitVec 64) (i : UInt64) (fuel : Nat) :
    (randUint gen seed i fuel = .panic ↔ i.toNat = 0 ∨ 2 ^ 63 ≤ i.toNat) ∧
    ∀ r, randUint gen seed i fuel = .ok r → r < i.toNat := by
  unfold randUint
  by_cases h : 0 < i.toNat ∧ i.toNat < 2 ^ 63
  · rw [toInt_pos h.1 h.2]
    refine ⟨⟨fun hp => ?_, fun hp => by omega⟩, fun r hr => ?_⟩
    · exfalso
      unfold intn at hp
      rw [if_neg (by omega)] at hp
      split at hp <;> exact boundedN_not_panic hp
    · rw [intn_ok (hg _) h.1 h.2] at hr
      split at hr <;> obtain ⟨k, _, rfl, _⟩ := hr <;> exact Nat.mod_lt _ h.1
  · have hn := toInt_neg h
    have hp : intn (gen (normSeed seed.toInt)) i.toBitVec.toInt fuel = .panic := by
      unfold intn; rw [if_pos hn]
    rw [hp]
    exact ⟨⟨fun _ => by omega, fun _ => rfl⟩, fun r hr => by cases hr⟩

/-- C132. No bias: of the 2^63 values the generator may draw, the same number leads to each result `r < i` at once; the
others are thrown away and the next draw decides. -/
theorem C132_unbiased (i : UInt64) (h0 : 0 < i.toNat) (h1 : i.toNat < 2 ^ 63) :
    (∀ r, r < i.toNat →
      Nat.count (fun v => intn (fun _ => v) i.toBitVec.toInt 1 = .ok r) (2 ^ 63) =
        if i.toNat < 2 ^ 31 then 2 ^ 31 / i.toNat * 2 ^ 32 else 2 ^ 63 / i.toNat) ∧
    ∀ f : Nat → Nat, (∀ k, f k < 2 ^ 63) → ∀ fuel r, intn f i.toBitVec.toInt fuel = .ok r ↔
      ∃ k, k < fuel ∧ intn (fun _ => f k) i.toBitVec.toInt 1 = .ok r ∧ ∀ j < k, intn (fun _ => f j) i.toBitVec.toInt 1 = .spin := by
  rw [toInt_pos h0 h1]
  generalize i.toNat = n at *
  refine ⟨fun r hr => ?_, fun f hf fuel r => ?_⟩
  · by_cases h : n < 2 ^ 31
    · rw [if_pos h]
      have e : Nat.count (fun v => intn (fun _ => v) n 1 = .ok r) (2 ^ 63) =
          Nat.count (fun v => (fun w => w % n = r ∧ Acc (2 ^ 31) n w) (v / 2 ^ 32)) (2 ^ 31 * 2 ^ 32) := by
        refine count_congr' fun v hv => ?_
        rw [intn_ok (fun _ => hv) h0 h1, if_pos (by omega)]
        constructor
        · rintro ⟨k, _, h2, h3, _⟩; exact ⟨h2, h3⟩
        · rintro ⟨h2, h3⟩; exact ⟨0, by omega, h2, h3, by omega⟩
      have e2 := count_div (fun w => w % n = r ∧ Acc (2 ^ 31) n w) (2 ^ 32) (by omega) (2 ^ 31)
      rw [count_acc hr] at e2
      exact e.trans e2
    · rw [if_neg h]
      have e : Nat.count (fun v => intn (fun _ => v) n 1 = .ok r) (2 ^ 63) =
          Nat.count (fun w => w % n = r ∧ Acc (2 ^ 63) n w) (2 ^ 63) := by
        refine count_congr' fun v hv => ?_
        rw [intn_ok (fun _ => hv) h0 h1, if_neg (by omega)]
        constructor
        · rintro ⟨k, _, h2, h3, _⟩; exact ⟨h2, h3⟩
        · rintro ⟨h2, h3⟩; exact ⟨0, by omega, h2, h3, by omega⟩
      rw [e, count_acc hr]
  · have hnp : ∀ g : Nat → Nat, intn g n 1 ≠ .panic := by
      intro g hp
      unfold intn at hp
      rw [if_neg (by omega)] at hp
      split at hp <;> exact boundedN_not_panic hp
    have hspin : ∀ v, v < 2 ^ 63 → (intn (fun _ => v) n 1 = .spin ↔
        if n ≤ 2 ^ 31 - 1 then ¬ Acc (2 ^ 31) n (v / 2 ^ 32) else ¬ Acc (2 ^ 63) n v) := by
      intro v hv
      have hok := fun r => intn_ok (f := fun _ => v) (fun _ => hv) (n := n) (fuel := 1) (r := r) h0 h1
      constructor
      · intro hs
        split
        · rename_i h
          intro ha
          have := (hok (v / 2 ^ 32 % n)).2 (by rw [if_pos h]; exact ⟨0, by omega, rfl, ha, by omega⟩)
          rw [hs] at this; cases this
        · rename_i h
          intro ha
          have := (hok (v % n)).2 (by rw [if_neg h]; exact ⟨0, by omega, rfl, ha, by omega⟩)
          rw [hs] at this; cases this
      · intro hs
        cases hi : intn (fun _ => v) n 1 with
        | panic => exact absurd hi (hnp _)
        | spin => rfl
        | ok r =>
          have := (hok r).1 hi
          split at hs <;> rename_i h
          · rw [if_pos h] at this
            obtain ⟨_, _, _, h3, _⟩ := this
            exact absurd h3 hs
          · rw [if_neg h] at this
            obtain ⟨_, _, _, h3, _⟩ := this
            exact absurd h3 hs
    rw [intn_ok hf h0 h1]
    by_cases h : n ≤ 2 ^ 31 - 1
    · rw [if_pos h]
      refine exists_congr fun k => and_congr_right fun _ => ?_
      rw [intn_ok (fun _ => hf k) h0 h1, if_pos h]
      constructor
      · rintro ⟨h2, h3, h4⟩
        exact ⟨⟨0, by omega, h2, h3, by omega⟩, fun j hj => (hspin _ (hf j)).2 (by rw [if_pos h]; exact h4 j hj)⟩
      · rintro ⟨⟨_, _, h2, h3, _⟩, h4⟩
        exact ⟨h2, h3, fun j hj => by have := (hspin _ (hf j)).1 (h4 j hj); rwa [if_pos h] at this⟩
    · rw [if_neg h]
      refine exists_congr fun k => and_congr_right fun _ => ?_
      rw [intn_ok (fun _ => hf k) h0 h1, if_neg h]
      constructor
      · rintro ⟨h2, h3, h4⟩
        exact ⟨⟨0, by omega, h2, h3, by omega⟩, fun j hj => (hspin _ (hf j)).2 (by rw [if_neg h]; exact h4 j hj)⟩
      · rintro ⟨⟨_, _, h2, h3, _⟩, h4⟩
        exact ⟨h2, h3, fun j hj => by have := (hspin _ (hf j)).1 (h4 j hj); rwa [if_neg h] at this⟩

/-- More draws do not change a result. -/
theorem intn_det {f : Nat → Nat} (hf : ∀ k, f k < 2 ^ 63) {n fuel fuel' r r' : Nat} (h0 : 0 < n) (h1 : n < 2 ^ 63)
    (h : intn f n fuel = .ok r) (h' : intn f n fuel' = .ok r') : r = r' := by
  have key : ∀ {P : Nat → Prop} {g : Nat → Nat}, (∃ k, k < fuel ∧ g k = r ∧ P k ∧ ∀ j < k, ¬ P j) →
      (∃ k, k < fuel' ∧ g k = r' ∧ P k ∧ ∀ j < k, ¬ P j) → r = r' := by
    rintro P g ⟨k, _, rfl, h2, h3⟩ ⟨k', _, rfl, h2', h3'⟩
    rcases Nat.lt_trichotomy k k' with hk | hk | hk
    · exact absurd h2 (h3' k hk)
    · rw [hk]
    · exact absurd h2' (h3 k' hk)
  rw [intn_ok hf h0 h1] at h h'
  split at h
  · rename_i hn
    rw [if_pos hn] at h'
    exact key (P := fun k => Acc (2 ^ 31) n (f k / 2 ^ 32)) (g := fun k => f k / 2 ^ 32 % n) h h'
  · rename_i hn
    rw [if_neg hn] at h'
    exact key (P := fun k => Acc (2 ^ 63) n (f k)) (g := fun k => f k % n) h h'

/-- C133, as one would like it: for some generator, every number below `i` can be the result. -/
def C133_claim : Prop := ∃ gen, Gen63 gen ∧ ∀ i : UInt64, 0 < i.toNat → i.toNat < 2 ^ 63 →
  ∀ r, r < i.toNat → ∃ seed fuel, randUint gen seed i fuel = .ok r

/-- C133. For every `i ≥ 2^31-1` there are numbers below `i` that `RandUint(i)` never returns, whatever the generator and
whatever the UUIDs: at most 2^31-2 different numbers ever come out. -/
theorem C133_unreachable (gen : Nat → Nat → Nat) (hg : Gen63 gen) (i : UInt64) (hi : 2 ^ 31 - 1 ≤ i.toNat) (hi2 : i.toNat < 2 ^ 63) :
    ∃ values : Finset Nat, values.card ≤ 2 ^ 31 - 2 ∧
      (∀ seed fuel r, randUint gen seed i fuel = .ok r → r ∈ values) ∧ ∃ r, r < i.toNat ∧ r ∉ values := by
  classical
  have h0 : 0 < i.toNat := by omega
  let g : Nat → Nat := fun s => if h : ∃ r, ∃ fuel, intn (gen s) i.toNat fuel = .ok r then h.choose else 0
  refine ⟨(Finset.Icc 1 (2 ^ 31 - 2)).image g, ?_, ?_, ?_⟩
  · refine Nat.le_trans Finset.card_image_le ?_
    rw [Nat.card_Icc]
    omega
  · intro seed fuel r hr
    unfold randUint at hr
    rw [toInt_pos h0 hi2] at hr
    obtain ⟨h1, h2⟩ := normSeed_range seed.toInt
    refine Finset.mem_image.2 ⟨normSeed seed.toInt, Finset.mem_Icc.2 ⟨h1, h2⟩, ?_⟩
    have hex : ∃ r, ∃ fuel, intn (gen (normSeed seed.toInt)) i.toNat fuel = .ok r := ⟨r, fuel, hr⟩
    simp only [g]
    rw [dif_pos hex]
    obtain ⟨fuel', hc⟩ := hex.choose_spec
    exact intn_det (hg _) h0 hi2 hc hr
  · have hc : ((Finset.Icc 1 (2 ^ 31 - 2)).image g).card < (Finset.range i.toNat).card := by
      rw [Finset.card_range]
      refine Nat.lt_of_le_of_lt Finset.card_image_le ?_
      rw [Nat.card_Icc]
      omega
    obtain ⟨r, h1, h2⟩ := Finset.exists_mem_notMem_of_card_lt_card hc
    exact ⟨r, Finset.mem_range.1 h1, h2⟩

theorem C133_claim_false : ¬ C133_claim := by
  rintro ⟨gen, hg, h⟩
  obtain ⟨values, _, h2, r, h3, h4⟩ := C133_unreachable gen hg 0x7fffffff (by decide) (by decide)
  obtain ⟨seed, fuel, hr⟩ := h 0x7fffffff (by decide) (by decide) r h3
  exact h4 (h2 seed fuel r hr)

/-- C134. `RandInt64Strict(i)` panics exactly for `i ≤ 0`. Otherwise it returns a number from 0 to `i-1` with a nil error, or 0
with an error if the random source fails. -/
theorem C134_range (read : Nat → Nat → Option (List UInt8)) (i : BitVec 64) (fuel : Nat) :
    (randInt64Strict read i fuel = .panic ↔ i.toInt ≤ 0) ∧
    ∀ r ok, randInt64Strict read i fuel = .ok (r, ok) →
      (ok = true ∧ 0 ≤ r.toInt ∧ r.toInt < i.toInt) ∨ (ok = false ∧ r = 0 ∧ ∃ k j, read k j = none) := by
  have hlt : i.toInt < 2 ^ 63 := by have := BitVec.toInt_lt (x := i); simpa using this
  unfold randInt64Strict cryptoInt
  by_cases h : i.toInt ≤ 0
  · rw [if_pos h]
    exact ⟨⟨fun _ => h, fun _ => rfl⟩, fun r ok hr => by cases hr⟩
  · rw [if_neg h]
    simp only
    have small : ∀ r : Nat, (r : Int) < i.toInt → (BitVec.ofNat 64 r).toInt = r := by
      intro r hr
      have h63 : r < 2 ^ 63 := by omega
      rw [BitVec.toInt_eq_toNat_of_lt]
      · rw [BitVec.toNat_ofNat, Nat.mod_eq_of_lt (by omega)]
      · rw [BitVec.toNat_ofNat, Nat.mod_eq_of_lt (by omega)]; omega
    by_cases hl : bitLen (i.toInt.toNat - 1) = 0
    · rw [if_pos hl]
      refine ⟨⟨fun hp => (by cases hp), fun hp => absurd hp h⟩, fun r ok hr => ?_⟩
      simp only [Res.ok.injEq, Prod.mk.injEq] at hr
      obtain ⟨rfl, rfl⟩ := hr
      refine .inl ⟨rfl, ?_, ?_⟩
      · decide
      · have : (BitVec.ofNat 64 0).toInt = 0 := by decide
        rw [this]; omega
    · rw [if_neg hl]
      generalize hb : (if bitLen (i.toInt.toNat - 1) % 8 = 0 then 8 else bitLen (i.toInt.toNat - 1) % 8) = b
      generalize hk : (bitLen (i.toInt.toNat - 1) + 7) / 8 = k
      cases ho : intLoop i.toInt.toNat b (read k) fuel with
      | panic => exact absurd ho intLoop_not_panic
      | spin => exact ⟨⟨fun hp => (by cases hp), fun hp => absurd hp h⟩, fun r ok hr => (by cases hr)⟩
      | ok o =>
        obtain ⟨j, _, _, h3⟩ := intLoop_ok.1 ho
        rcases h3 with ⟨rfl, h3⟩ | ⟨bs, h3, h4, rfl⟩
        · refine ⟨⟨fun hp => (by cases hp), fun hp => absurd hp h⟩, fun r ok hr => ?_⟩
          simp only [Res.ok.injEq, Prod.mk.injEq] at hr
          exact .inr ⟨hr.2.symm, hr.1.symm, k, j, h3⟩
        · refine ⟨⟨fun hp => (by cases hp), fun hp => absurd hp h⟩, fun r ok hr => ?_⟩
          simp only [Res.ok.injEq, Prod.mk.injEq] at hr
          obtain ⟨rfl, rfl⟩ := hr
          refine .inl ⟨rfl, ?_, ?_⟩ <;> rw [small _ (by omega)] <;> omega

/-- C134. No bias, and every number can come out: with `k` bytes read at a time, of the `256^k` possible strings exactly
`2^(8k-l)` lead to each `r < i` at once, where `2^(l-1) < i ≤ 2^l`; and a rejected string is followed by another read. -/
theorem C134_unbiased (i : BitVec 64) (hi : 1 < i.toInt) :
    ∃ k l, 2 ^ (l - 1) < i.toInt ∧ i.toInt ≤ 2 ^ l ∧ 1 ≤ l ∧ 8 * (k - 1) < l ∧ l ≤ 8 * k ∧
      (∀ r : Nat, (r : Int) < i.toInt →
        Nat.count (fun v => randInt64Strict (fun m _ => some (beBytes m v)) i 1 = .ok (BitVec.ofNat 64 r, true)) (256 ^ k) =
          2 ^ (8 * k - l)) ∧
      ∀ read fuel r, randInt64Strict read i fuel = .ok (r, true) ↔
        ∃ j, j < fuel ∧ randInt64Strict (fun m _ => read m j) i 1 = .ok (r, true) ∧
          ∀ t < j, randInt64Strict (fun m _ => read m t) i 1 = .spin := by
  have hlt : i.toInt < 2 ^ 63 := by have := BitVec.toInt_lt (x := i); simpa using this
  obtain ⟨n, hn⟩ : ∃ n : Nat, i.toInt = n := ⟨i.toInt.toNat, by omega⟩
  rw [hn] at hi hlt ⊢
  have hn1 : 1 < n := by omega
  have hn63 : n < 2 ^ 63 := by omega
  have hl0 : bitLen (n - 1) ≠ 0 := by
    unfold bitLen; rw [if_neg (by omega)]; omega
  have hup := lt_two_pow_bitLen (n - 1)
  have hlow := two_pow_le hl0
  have unf : ∀ (read : Nat → Nat → Option (List UInt8)) fuel, randInt64Strict read i fuel =
      match intLoop n (if bitLen (n - 1) % 8 = 0 then 8 else bitLen (n - 1) % 8) (read ((bitLen (n - 1) + 7) / 8)) fuel with
      | .panic => .panic | .spin => .spin | .ok (some r) => .ok (BitVec.ofNat 64 r, true) | .ok none => .ok (0, false) := by
    intro read fuel
    unfold randInt64Strict cryptoInt
    rw [hn, if_neg (by omega)]
    simp only [Int.toNat_natCast]
    rw [if_neg hl0]
    cases intLoop n (if bitLen (n - 1) % 8 = 0 then 8 else bitLen (n - 1) % 8) (read ((bitLen (n - 1) + 7) / 8)) fuel with
    | ok o => cases o <;> rfl
    | _ => rfl
  refine ⟨(bitLen (n - 1) + 7) / 8, bitLen (n - 1), ?_, ?_, by omega, by omega, by omega, ?_, ?_⟩
  · exact_mod_cast Nat.lt_of_le_of_lt hlow (Nat.sub_lt (by omega) (by omega))
  · exact_mod_cast (Nat.sub_lt_iff_lt_add (by omega)).1 hup |> Nat.le_of_lt_succ
  · intro r hr
    have hr : r < n := by omega
    have hwin : ∀ x : Nat, x < n → (BitVec.ofNat 64 x = BitVec.ofNat 64 r ↔ x = r) := by
      intro x hx
      constructor
      · intro h
        have := congrArg BitVec.toNat h
        rwa [BitVec.toNat_ofNat, BitVec.toNat_ofNat, Nat.mod_eq_of_lt (by omega), Nat.mod_eq_of_lt (by omega)] at this
      · rintro rfl; rfl
    generalize hL : bitLen (n - 1) = l at *
    generalize hK : (l + 7) / 8 = k at *
    have hpow : 256 ^ k = 2 ^ l * 2 ^ (8 * k - l) := by
      rw [← Nat.pow_add, show l + (8 * k - l) = 8 * k by omega, Nat.pow_mul]
    rw [hpow]
    conv_rhs => rw [← count_mod (2 ^ l) r (by omega) (2 ^ (8 * k - l))]
    refine count_congr' fun v hv => ?_
    have hval : setBytes (mask (if l % 8 = 0 then 8 else l % 8) (beBytes k v)) = v % 2 ^ l := by
      rw [mask_value _ l hl0 (by rw [beBytes_length, hK]), beValue_beBytes, hpow, Nat.mod_eq_of_lt hv]
    rw [unf]
    simp only [intLoop, hval]
    split
    · rename_i x hx
      split at hx <;> cases hx
    · rename_i hx
      constructor
      · intro h; cases h
      · intro h; rw [h, if_pos hr] at hx; cases hx
    · rename_i x hx
      split at hx
      · rename_i hlt'
        cases hx
        simp only [Res.ok.injEq, Prod.mk.injEq, and_true]
        exact hwin _ hlt'
      · cases hx
    · rename_i hx
      split at hx <;> cases hx
  · intro read fuel r
    generalize hL : bitLen (n - 1) = l at *
    generalize hK : (l + 7) / 8 = k at *
    generalize hB : (if l % 8 = 0 then 8 else l % 8) = b at *
    have hok : ∀ (read : Nat → Nat → Option (List UInt8)) fuel r, randInt64Strict read i fuel = .ok (r, true) ↔
        ∃ o, intLoop n b (read k) fuel = .ok (some o) ∧ r = BitVec.ofNat 64 o := by
      intro read fuel r
      rw [unf]
      cases intLoop n b (read k) fuel with
      | panic => exact ⟨fun h => (by cases h), fun ⟨o, h, _⟩ => (by cases h)⟩
      | spin => exact ⟨fun h => (by cases h), fun ⟨o, h, _⟩ => (by cases h)⟩
      | ok o =>
        cases o with
        | none => exact ⟨fun h => (by simp at h), fun ⟨o, h, _⟩ => (by simp at h)⟩
        | some x =>
          simp only [Res.ok.injEq, Prod.mk.injEq, and_true, Option.some.injEq]
          exact ⟨fun h => ⟨x, rfl, h.symm⟩, fun ⟨o, h1, h2⟩ => by rw [h1, h2]⟩
    have hspin' : ∀ (o : Option (List UInt8)) (f : Nat → Option (List UInt8)), f k = o →
        (randInt64Strict (fun m _ => f m) i 1 = .spin ↔ ∃ bs, o = some bs ∧ n ≤ setBytes (mask b bs)) := by
      intro o f hf
      rw [unf]
      simp only [hf]
      cases o with
      | none => simp [intLoop]
      | some bs =>
        simp only [intLoop]
        by_cases hc : setBytes (mask b bs) < n
        · rw [if_pos hc]; simp; omega
        · rw [if_neg hc]; simp; omega
    rw [hok]
    constructor
    · rintro ⟨o, h1, rfl⟩
      obtain ⟨j, hj, h2, h3⟩ := intLoop_ok.1 h1
      rcases h3 with ⟨h3, _⟩ | ⟨bs, h3, h4, h5⟩
      · cases h3
      · refine ⟨j, hj, (hok _ _ _).2 ⟨o, ?_, rfl⟩, fun t ht => (hspin' (read k t) (fun m => read m t) rfl).2 (h2 t ht)⟩
        simp only [intLoop, h3]
        rw [if_pos h4, h5]
    · rintro ⟨j, hj, h1, h2⟩
      obtain ⟨o, h3, rfl⟩ := (hok _ _ _).1 h1
      refine ⟨o, intLoop_ok.2 ⟨j, hj, fun t ht => (hspin' (read k t) (fun m => read m t) rfl).1 (h2 t ht), ?_⟩, rfl⟩
      obtain ⟨j', hj', _, h4⟩ := intLoop_ok.1 h3
      exact h4

/-! ### Concrete cases -/

/-- A generator counting up. -/
def countUp : Nat → Nat → Nat := fun s k => (s + k) * 2 ^ 32 % 2 ^ 63

example : Gen63 countUp := fun s k => Nat.mod_lt _ (by decide)
example : randUint countUp 17 10 5 = .ok 7 := by decide +kernel
example : randUint countUp 0 10 5 = .ok 1 := by decide +kernel
example : randUint countUp 17 0 5 = .panic := by decide +kernel
example : randUint countUp 17 0xffffffffffffffff 5 = .panic := by decide +kernel
/-- Of 2^31 draws the last 8 are thrown away for `i = 10`. -/
example : intn (fun _ => (2 ^ 31 - 8) * 2 ^ 32) 10 3 = .spin ∧ intn (fun _ => (2 ^ 31 - 9) * 2 ^ 32) 10 3 = .ok 9 := by decide +kernel
/-- `i = 300`: two bytes, 9 bits; the first string gives 511 and is rejected. -/
example : randInt64Strict (fun _ j => if j = 0 then some [0xff, 0xff] else some [0x03, 0x05]) 300 5 = .ok (261, true) := by decide +kernel
example : randInt64Strict (fun _ _ => none) 300 5 = .ok (0, false) ∧ randInt64Strict (fun _ _ => none) (-5) 5 = .panic := by decide +kernel

end Gofer.Props.Rand
