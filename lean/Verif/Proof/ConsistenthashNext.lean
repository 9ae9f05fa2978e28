import Verif.Proof.Consistenthash
import Verif.Proof.Num

namespace Gofer.Consistenthash
open Gofer.Spec.Ring
variable {P : Type} [LinearOrder P]

/-! ### `firsts` -/

theorem firsts_congr {α : Type} [DecidableEq α] (l : List α) {s s' : List α} (h : ∀ a, a ∈ s ↔ a ∈ s') :
    firsts s l = firsts s' l := by
  induction l generalizing s s' with
  | nil => rfl
  | cons a l ih =>
    simp only [firsts, h a]
    split
    · exact ih h
    · rw [ih (s := a :: s) (s' := a :: s')]
      intro b; simp [h b]

theorem mem_firsts {α : Type} [DecidableEq α] {l : List α} {s : List α} {a : α} : a ∈ firsts s l ↔ a ∈ l ∧ a ∉ s := by
  induction l generalizing s with
  | nil => simp [firsts]
  | cons b l ih =>
    simp only [firsts]
    split
    · rename_i hb
      rw [ih, List.mem_cons]
      constructor
      · rintro ⟨h1, h2⟩; exact ⟨Or.inr h1, h2⟩
      · rintro ⟨rfl | h1, h2⟩
        · exact absurd hb h2
        · exact ⟨h1, h2⟩
    · rename_i hb
      rw [List.mem_cons, ih, List.mem_cons, List.mem_cons]
      by_cases hab : a = b
      · subst hab; simp [hb]
      · simp [hab]

theorem nodup_firsts {α : Type} [DecidableEq α] (l s : List α) : (firsts s l).Nodup := by
  induction l generalizing s with
  | nil => simp [firsts]
  | cons b l ih =>
    simp only [firsts]
    split
    · exact ih s
    · refine List.nodup_cons.2 ⟨?_, ih _⟩
      rw [mem_firsts]; simp

theorem nextLoop_eq (m : AMap P (BitVec 64)) (n1 : BitVec 64) (step : Nat) (ks : List P) (nodes : List (BitVec 64))
    (hlt : nodes.length < step) :
    nextLoop m n1 step ks nodes = (nodes ++ firsts (n1 :: nodes) (ks.filterMap m.load)).take step := by
  induction ks generalizing nodes with
  | nil =>
    simp only [nextLoop, List.filterMap_nil, firsts, List.append_nil]
    rw [List.take_of_length_le (by omega)]
  | cons k ks ih =>
    have hne : ¬ ((nodes.length : Int) = (step : Int)) := by omega
    simp only [nextLoop]
    cases hk : m.load k with
    | none =>
      simp only [hne, if_false]
      rw [List.filterMap_cons_none hk]
      exact ih nodes hlt
    | some node =>
      rw [List.filterMap_cons_some hk]
      simp only [firsts, List.mem_cons]
      by_cases h1 : node = n1
      · simp only [h1, ne_eq, not_true_eq_false, if_false, hne, true_or, if_true]
        exact ih nodes hlt
      · by_cases h2 : node ∈ nodes
        · simp only [ne_eq, h1, not_false_eq_true, if_true, h2, or_true, hne, if_false]
          exact ih nodes hlt
        · simp only [ne_eq, h1, not_false_eq_true, if_true, h2, or_false, if_false]
          by_cases h3 : ((nodes ++ [node]).length : Int) = (step : Int)
          · rw [if_pos h3]
            have : step = (nodes ++ [node]).length := by omega
            have e : ∀ X, (nodes ++ node :: X).take (nodes ++ [node]).length = nodes ++ [node] := by
              intro X
              rw [show nodes ++ node :: X = (nodes ++ [node]) ++ X by simp, List.take_left]
            rw [this, e]
          · rw [if_neg h3]
            have hl : (nodes ++ [node]).length < step := by
              simp only [List.length_append, List.length_cons, List.length_nil] at h3 ⊢
              omega
            rw [ih _ hl, List.append_assoc, List.singleton_append]
            rw [firsts_congr (s := n1 :: (nodes ++ [node])) (s' := node :: n1 :: nodes)]
            intro a; simp only [List.mem_cons, List.mem_append, List.not_mem_nil, or_false]; tauto

/-- Duplicates in the sorted key list and copies of the primary point do not matter. -/
theorem firsts_sorted {f : P → Option (BitVec 64)} (ks : List P) {l : List P} {p : P} {a : BitVec 64} {seen : List (BitVec 64)}
    (hs : ks.Pairwise (· ≤ ·)) (hge : ∀ k ∈ ks, p ≤ k) (hfp : f p = some a) (ha : a ∈ seen)
    (hl : l.Pairwise (· < ·)) (hmem : ∀ q, q ∈ l ↔ q ∈ ks ∧ p < q) (hown : ∀ k ∈ ks, f k ≠ none) :
    firsts seen (ks.filterMap f) = firsts seen (l.filterMap f) := by
  induction ks generalizing l p a seen with
  | nil =>
    have : l = [] := List.eq_nil_iff_forall_not_mem.2 fun q hq => by simpa using (hmem q).1 hq
    rw [this]
  | cons k ks ih =>
    obtain ⟨hs1, hs2⟩ := List.pairwise_cons.1 hs
    have hown' : ∀ x ∈ ks, f x ≠ none := fun x hx => hown x (List.mem_cons_of_mem _ hx)
    rcases eq_or_lt_of_le (hge k (by simp)) with hpk | hpk
    · subst hpk
      rw [List.filterMap_cons_some hfp]
      simp only [firsts, ha, if_true]
      refine ih hs2 hs1 hfp ha hl ?_ hown'
      intro q
      rw [hmem q, List.mem_cons]
      constructor
      · rintro ⟨rfl | h1, h2⟩
        · exact absurd h2 (lt_irrefl _)
        · exact ⟨h1, h2⟩
      · rintro ⟨h1, h2⟩; exact ⟨Or.inr h1, h2⟩
    · obtain ⟨b, hb⟩ := Option.ne_none_iff_exists'.1 (hown k (by simp))
      have hk : k ∈ l := (hmem k).2 ⟨by simp, hpk⟩
      cases l with
      | nil => simp at hk
      | cons y l =>
        obtain ⟨hl1, hl2⟩ := List.pairwise_cons.1 hl
        have hy : y = k := by
          rcases List.mem_cons.1 hk with h | h
          · exact h.symm
          · have h1 := hl1 k h
            obtain ⟨h2, _⟩ := (hmem y).1 (by simp)
            rcases List.mem_cons.1 h2 with h3 | h3
            · exact h3
            · exact absurd h1 (not_lt.2 (hs1 y h3))
        subst hy
        have hmem' : ∀ q, q ∈ l ↔ q ∈ ks ∧ y < q := by
          intro q
          constructor
          · intro hq
            have h1 := hl1 q hq
            refine ⟨?_, h1⟩
            rcases List.mem_cons.1 ((hmem q).1 (List.mem_cons_of_mem _ hq)).1 with h2 | h2
            · rw [h2] at h1; exact absurd h1 (lt_irrefl _)
            · exact h2
          · rintro ⟨h1, h2⟩
            rcases List.mem_cons.1 ((hmem q).2 ⟨List.mem_cons_of_mem _ h1, lt_trans hpk h2⟩) with h3 | h3
            · rw [h3] at h2; exact absurd h2 (lt_irrefl _)
            · exact h3
        rw [List.filterMap_cons_some hb, List.filterMap_cons_some hb]
        simp only [firsts]
        split
        · rename_i hbs
          exact ih hs2 hs1 hb hbs hl2 hmem' hown'
        · rw [ih hs2 hs1 hb (seen := b :: seen) (by simp) hl2 hmem' hown']

theorem getNextNode_spec (hash : List UInt8 → P) {t : CH P} {s : St P (BitVec 64)} {r : Nat} (h : Inv t s r) (v : List UInt8) (step : Nat)
    (hpos : 0 < step) (p : P) (n1 : BitVec 64) (hp : IsSucc s.ring (hash v) p) (hn : s.ring p = some n1)
    (l : List P) (hl : l.Pairwise (· < ·)) (hmem : ∀ q, q ∈ l ↔ s.ring q ≠ none ∧ p < q) :
    getNextNode hash t v step = some ((firsts [n1] (l.filterMap s.ring)).take step, true) := by
  have hk : t.keys ≠ [] := List.ne_nil_of_mem ((h.mem p).2 hp.1)
  obtain ⟨p', h1, h2, h3⟩ := lookup_succ h (hash v) hk
  obtain rfl := succ_unique hp h2
  have hload : t.m.load = s.ring := funext h.load
  have hidx : t.keys[index t (hash v)] = p := by
    rw [List.getElem?_eq_getElem h3] at h1; exact Option.some.inj h1
  simp only [getNextNode, h.alloc hk, Bool.true_eq_false, if_false, h1, hload, hn, Option.getD_some, Option.isSome_some]
  rw [nextLoop_eq _ _ _ _ _ (by simpa using hpos), hload, List.nil_append]
  congr 3
  refine firsts_sorted (p := p) (a := n1) _ (h.sorted.sublist (List.drop_sublist _ _)) ?_ hn (by simp) hl ?_ ?_
  · intro k hkm
    obtain ⟨j, hj, rfl⟩ := List.getElem_of_mem hkm
    rw [← hidx, List.getElem_drop]
    exact getElem_le h.sorted (by omega) _
  · intro q
    rw [hmem q, ← h.mem q]
    constructor
    · rintro ⟨hq, hlt⟩
      refine ⟨?_, hlt⟩
      obtain ⟨j, hj, rfl⟩ := List.getElem_of_mem hq
      have hij : index t (hash v) < j := by
        by_contra hc
        have := getElem_le h.sorted (a := j) (b := index t (hash v)) (by omega) h3
        rw [hidx] at this
        exact absurd hlt (not_lt.2 this)
      rw [List.mem_iff_getElem]
      refine ⟨j - (index t (hash v) + 1), by rw [List.length_drop]; omega, ?_⟩
      rw [List.getElem_drop]
      congr 1; omega
    · rintro ⟨hq, hlt⟩
      exact ⟨List.mem_of_mem_drop hq, hlt⟩
  · intro k hk'
    exact (h.mem k).1 (List.mem_of_mem_drop hk')

/-! ### Collisions of CRC64 points -/

theorem int64ToBytes_length (n : BitVec 64) : (int64ToBytes n).length = 8 := by
  rw [int64ToBytes, Num.int64ToBytes_eq, Num.beBytes_length]

theorem int64ToBytes_inj {a b : BitVec 64} (h : int64ToBytes a = int64ToBytes b) : a = b := by
  simp only [int64ToBytes, Num.int64ToBytes_eq] at h
  have h1 := congrArg Spec.Num.beValue h
  rw [Num.beValue_beBytes, Num.beValue_beBytes] at h1
  apply BitVec.eq_of_toNat_eq
  have ha := a.isLt
  have hb := b.isLt
  omega

theorem word_low (n : BitVec 64) (h : n.toNat < 2 ^ 48) : Crc64.word (int64ToBytes n) % 2 ^ 16 = 0 := by
  rw [int64ToBytes, Num.int64ToBytes_eq]
  simp only [Num.beBytes, List.nil_append, List.cons_append, Crc64.word, UInt8.toNat_ofNat']
  have h6 : n.toNat / 256 / 256 / 256 / 256 / 256 / 256 = 0 := by omega
  rw [h6]
  clear h6 h
  omega

theorem word_high (n : BitVec 64) (h : n.toNat < 2 ^ 16) :
    ∃ v < 2 ^ 16, Crc64.word (int64ToBytes n) = v * 2 ^ 48 := by
  rw [int64ToBytes, Num.int64ToBytes_eq]
  simp only [Num.beBytes, List.nil_append, List.cons_append, Crc64.word, UInt8.toNat_ofNat']
  have h2 : n.toNat / 256 / 256 = 0 := by omega
  rw [h2]
  refine ⟨n.toNat / 256 % 256 + 256 * (n.toNat % 256), by omega, by omega⟩

/-- All combinations of `bs`, xored to `acc`, have a non-zero low half word. -/
def nzAll : List Nat → Nat → Bool
  | [], acc => !(acc % 2 ^ 16 == 0)
  | b :: bs, acc => nzAll bs acc && nzAll bs (acc ^^^ b)

/-- All non-empty combinations of `bs` have a non-zero low half word. -/
def nz : List Nat → Bool
  | [] => true
  | b :: bs => nz bs && nzAll bs b

/-- The images of the unit vectors. -/
def units (f : BitVec 64 → BitVec 64) : Nat → List Nat
  | 0 => []
  | k + 1 => (f (BitVec.ofNat 64 (2 ^ k))).toNat :: units f k

theorem split_bit {d k : Nat} (hd : d < 2 ^ (k + 1)) (h : ¬ d < 2 ^ k) :
    ∃ d' < 2 ^ k, d = d' ^^^ 2 ^ k := by
  refine ⟨d - 2 ^ k, by rw [Nat.pow_succ] at hd; omega, ?_⟩
  have hlt : d - 2 ^ k < 2 ^ k := by rw [Nat.pow_succ] at hd; omega
  have h1 : 2 ^ k * 1 + (d - 2 ^ k) = 2 ^ k * 1 ||| (d - 2 ^ k) := Nat.two_pow_add_eq_or_of_lt hlt 1
  have h2 : d = 2 ^ k * 1 + (d - 2 ^ k) := by omega
  have h3 : d = 2 ^ k * 1 ||| (d - 2 ^ k) := h2.trans h1
  conv_lhs => rw [h3]
  apply Nat.eq_of_testBit_eq
  intro i
  rw [Nat.testBit_or, Nat.testBit_xor, Nat.mul_one, Nat.testBit_two_pow]
  by_cases hi : k = i
  · subst hi
    rw [Nat.testBit_lt_two_pow hlt]; simp
  · simp [hi]

theorem nzAll_spec (f : BitVec 64 → BitVec 64) (hf : ∀ x y, f (x ^^^ y) = f x ^^^ f y) (k : Nat) (acc : Nat)
    (h : nzAll (units f k) acc = true) (d : Nat) (hd : d < 2 ^ k) : (acc ^^^ (f (BitVec.ofNat 64 d)).toNat) % 2 ^ 16 ≠ 0 := by
  induction k generalizing acc d with
  | zero =>
    have hd0 : d = 0 := by simpa using hd
    have hz : f 0#64 = 0#64 := by
      have := hf 0#64 0#64
      rw [BitVec.xor_self, BitVec.xor_self] at this
      exact this
    subst hd0
    simp only [units, nzAll] at h
    rw [hz]
    simpa using h
  | succ k ih =>
    simp only [units, nzAll, Bool.and_eq_true] at h
    by_cases hk : d < 2 ^ k
    · exact ih acc h.1 d hk
    · obtain ⟨d', hd', rfl⟩ := split_bit hd hk
      have := ih _ h.2 d' hd'
      rw [BitVec.ofNat_xor, hf, BitVec.toNat_xor, Nat.xor_comm (f (BitVec.ofNat 64 d')).toNat, ← Nat.xor_assoc]
      exact this

theorem nz_spec (f : BitVec 64 → BitVec 64) (hf : ∀ x y, f (x ^^^ y) = f x ^^^ f y) (k : Nat)
    (h : nz (units f k) = true) (d : Nat) (hd : d < 2 ^ k) (h0 : d ≠ 0) : (f (BitVec.ofNat 64 d)).toNat % 2 ^ 16 ≠ 0 := by
  induction k generalizing d with
  | zero => simp at hd; omega
  | succ k ih =>
    simp only [units, nz, Bool.and_eq_true] at h
    by_cases hk : d < 2 ^ k
    · exact ih h.1 d hk h0
    · obtain ⟨d', hd', rfl⟩ := split_bit hd hk
      have := nzAll_spec f hf k _ h.2 d' hd'
      rw [BitVec.ofNat_xor, hf, BitVec.toNat_xor, Nat.xor_comm]
      exact this

/-- Replica index difference (as placed in the register) to node difference. -/
def shift (v : BitVec 64) : BitVec 64 := Crc64.bitSteps 64 (v <<< 48)

theorem shift_xor (x y : BitVec 64) : shift (x ^^^ y) = shift x ^^^ shift y := by
  rw [shift, BitVec.shiftLeft_xor_distrib, Crc64.bitSteps_xor]; rfl

theorem shift_nz : nz (units shift 16) = true := by decide +kernel

theorem crc_inj {a b : List UInt8} (h : crc a = crc b) : Crc64.crc64 a = Crc64.crc64 b :=
  UInt64.toNat_inj.1 h

/-- Equality of two 16-byte checksums in terms of the register contents. -/
theorem point_eq {i j : Nat} {a b : BitVec 64} (h : point crc i a = point crc j b) :
    BitVec.ofNat 64 (Crc64.word (int64ToBytes a)) ^^^ BitVec.ofNat 64 (Crc64.word (int64ToBytes b)) =
    Crc64.bitSteps 64 (BitVec.ofNat 64 (Crc64.word (int64ToBytes (BitVec.ofNat 64 i))) ^^^
      BitVec.ofNat 64 (Crc64.word (int64ToBytes (BitVec.ofNat 64 j)))) := by
  have h1 : Crc64.checksum _ = Crc64.checksum _ := congrArg UInt64.toBitVec (crc_inj h)
  unfold Crc64.checksum at h1
  have h2 := congrArg (~~~ ·) h1
  simp only [BitVec.not_not, List.foldl_append] at h2
  have e8 : ∀ n, (int64ToBytes n).length ≤ 8 := fun n => le_of_eq (int64ToBytes_length n)
  rw [Crc64.foldl_eq _ (e8 a), Crc64.foldl_eq _ (e8 b), int64ToBytes_length, int64ToBytes_length] at h2
  have h3 := Crc64.bitSteps_inj _ h2
  rw [Crc64.foldl_eq _ (e8 _), Crc64.foldl_eq _ (e8 _), int64ToBytes_length, int64ToBytes_length,
    Crc64.bitSteps_xor, Crc64.bitSteps_xor] at h3
  rw [Crc64.bitSteps_xor]
  generalize BitVec.ofNat 64 (Crc64.word (int64ToBytes a)) = A at h3 ⊢
  generalize BitVec.ofNat 64 (Crc64.word (int64ToBytes b)) = B at h3 ⊢
  generalize Crc64.bitSteps (8 * 8) (~~~0#64) = C at h3
  generalize Crc64.bitSteps (8 * 8) (BitVec.ofNat 64 (Crc64.word (int64ToBytes (BitVec.ofNat 64 i)))) = I at h3 ⊢
  generalize Crc64.bitSteps (8 * 8) (BitVec.ofNat 64 (Crc64.word (int64ToBytes (BitVec.ofNat 64 j)))) = J at h3 ⊢
  rw [BitVec.xor_assoc, BitVec.xor_assoc] at h3
  have h4 := (BitVec.xor_right_inj _).1 h3
  have h5 : I ^^^ (I ^^^ A) ^^^ B = I ^^^ (J ^^^ B) ^^^ B := by rw [h4]
  rw [← BitVec.xor_assoc, BitVec.xor_self, BitVec.zero_xor, BitVec.xor_assoc, BitVec.xor_assoc, BitVec.xor_self, BitVec.xor_zero] at h5
  exact h5

/-- Small node ids and moderate replica counts: ring points of different replicas never coincide. -/
theorem point_inj {i j : Nat} {a b : BitVec 64} (hi : i < 2 ^ 16) (hj : j < 2 ^ 16) (ha : a.toNat < 2 ^ 48) (hb : b.toNat < 2 ^ 48)
    (h : point crc i a = point crc j b) : i = j ∧ a = b := by
  have hi' : (BitVec.ofNat 64 i).toNat < 2 ^ 16 := by rw [BitVec.toNat_ofNat]; omega
  have hj' : (BitVec.ofNat 64 j).toNat < 2 ^ 16 := by rw [BitVec.toNat_ofNat]; omega
  obtain ⟨v, hv, ev⟩ := word_high _ hi'
  obtain ⟨w, hw, ew⟩ := word_high _ hj'
  have h1 := point_eq h
  have hsh : ∀ v, BitVec.ofNat 64 (v * 2 ^ 48) = BitVec.ofNat 64 v <<< 48 := by
    intro v
    apply BitVec.eq_of_toNat_eq
    rw [BitVec.toNat_shiftLeft, BitVec.toNat_ofNat, BitVec.toNat_ofNat, Nat.shiftLeft_eq, Nat.mod_mul_mod]
  have hij : i = j := by
    by_contra hne
    have hvw : v ≠ w := by
      rintro rfl
      have h2 := Crc64.word_inj (by rw [int64ToBytes_length, int64ToBytes_length]) (ev.trans ew.symm)
      have h3 := congrArg BitVec.toNat (int64ToBytes_inj h2)
      rw [BitVec.toNat_ofNat, BitVec.toNat_ofNat] at h3
      omega
    rw [ev, ew, hsh, hsh, ← BitVec.shiftLeft_xor_distrib, ← BitVec.ofNat_xor (x := v)] at h1
    have h2 := nz_spec shift shift_xor 16 shift_nz (v ^^^ w) (Nat.xor_lt_two_pow hv hw)
      (fun hc => hvw (by have := congrArg (v ^^^ ·) hc; simpa [← Nat.xor_assoc] using this.symm))
    apply h2
    rw [shift, ← h1, BitVec.toNat_xor]
    have ea := word_low a ha
    have eb := word_low b hb
    rw [Nat.xor_mod_two_pow, BitVec.toNat_ofNat, BitVec.toNat_ofNat,
      Nat.mod_mod_of_dvd _ (by decide), Nat.mod_mod_of_dvd _ (by decide), ea, eb]
    rfl
  subst hij
  refine ⟨rfl, ?_⟩
  rw [BitVec.xor_self, show Crc64.bitSteps 64 (0#64) = 0#64 by decide +kernel] at h1
  have h2 := congrArg BitVec.toNat (BitVec.xor_eq_zero_iff.1 h1)
  rw [BitVec.toNat_ofNat, BitVec.toNat_ofNat] at h2
  have ka := Crc64.word_lt (int64ToBytes a)
  have kb := Crc64.word_lt (int64ToBytes b)
  rw [int64ToBytes_length] at ka kb
  exact int64ToBytes_inj (Crc64.word_inj (by rw [int64ToBytes_length, int64ToBytes_length]) (by omega))

end Gofer.Consistenthash
