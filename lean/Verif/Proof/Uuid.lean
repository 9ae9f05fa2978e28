import Verif.Model.Uuid
import Verif.Spec.Uuid
import Verif.Proof.Num
import Mathlib.Data.List.Perm.Subperm
import Mathlib.Data.List.Nodup

namespace Gofer.Uuid
open Gofer.Num Gofer.Spec.Uuid Gofer.Spec.Num

theorem fromHexChar_eq (c : UInt8) : fromHexChar c = digitValue c := by
  unfold fromHexChar digitValue
  split
  · rfl
  · split
    · rename_i h
      have h1 := h.1
      rw [UInt8.le_iff_toNat_le] at h1
      have : (97 : UInt8).toNat = 97 := rfl
      congr 1; omega
    · split
      · rename_i h
        have h1 := h.1
        rw [UInt8.le_iff_toNat_le] at h1
        have : (65 : UInt8).toNat = 65 := rfl
        congr 1; omega
      · rfl

theorem digitValue_lt {c : UInt8} {n : Nat} (h : digitValue c = some n) : n < 16 := by
  unfold digitValue at h
  have e0 : (48 : UInt8).toNat = 48 := rfl
  have e1 : (57 : UInt8).toNat = 57 := rfl
  have e2 : (97 : UInt8).toNat = 97 := rfl
  have e3 : (102 : UInt8).toNat = 102 := rfl
  have e4 : (65 : UInt8).toNat = 65 := rfl
  have e5 : (70 : UInt8).toNat = 70 := rfl
  split at h
  · rename_i hc; simp only [UInt8.le_iff_toNat_le] at hc; simp only [Option.some.injEq] at h; omega
  · split at h
    · rename_i hc; simp only [UInt8.le_iff_toNat_le] at hc; simp only [Option.some.injEq] at h; omega
    · split at h
      · rename_i hc; simp only [UInt8.le_iff_toNat_le] at hc; simp only [Option.some.injEq] at h; omega
      · cases h

theorem hexDecode_iff (ds bs : Bytes) : hexDecode ds = some bs ↔ Spells ds bs := by
  match ds, bs with
  | [], [] => simp [hexDecode, Spells]
  | [], _ :: _ => simp [hexDecode, Spells]
  | [_], bs => simp [hexDecode]; cases bs <;> simp [Spells]
  | h :: l :: r, [] =>
    simp only [hexDecode, Spells, iff_false]
    intro hh
    split at hh
    · split at hh <;> simp at hh
    · cases hh
  | h :: l :: r, b :: bs =>
    have ih := hexDecode_iff r bs
    simp only [hexDecode, Spells, fromHexChar_eq]
    cases hh : digitValue h with
    | none => simp
    | some x =>
      cases hl : digitValue l with
      | none => simp
      | some y =>
        have := digitValue_lt hh
        have := digitValue_lt hl
        have hb := b.toNat_lt
        simp only
        rw [← ih]
        cases hr : hexDecode r with
        | none => simp
        | some bs' =>
          simp only [Option.some.injEq, List.cons.injEq]
          constructor
          · rintro ⟨rfl, rfl⟩
            have : ((x * 16 + y).toUInt8).toNat = x * 16 + y := by simp [Nat.toUInt8]; omega
            rw [this]
            exact ⟨by omega, by omega, rfl⟩
          · rintro ⟨h1, h2, rfl⟩
            refine ⟨?_, rfl⟩
            apply UInt8.toNat_inj.1
            have : ((x * 16 + y).toUInt8).toNat = x * 16 + y := by simp [Nat.toUInt8]; omega
            rw [this]; omega

theorem hexChar_digit (n : Fin 16) : digitValue (hexChar n) = some n.val ∧ IsLowerHex (hexChar n) := by
  revert n; unfold IsLowerHex; decide +kernel

theorem digit_hexChar {n : Nat} (h : n < 16) : digitValue (hexChar n) = some n := (hexChar_digit ⟨n, h⟩).1
theorem lower_hexChar {n : Nat} (h : n < 16) : IsLowerHex (hexChar n) := (hexChar_digit ⟨n, h⟩).2

theorem spells_hexEncode (bs : Bytes) : Spells (hexEncode bs) bs := by
  induction bs with
  | nil => trivial
  | cons b bs ih =>
    have := b.toNat_lt
    exact ⟨digit_hexChar (by omega), digit_hexChar (by omega), ih⟩

theorem lower_hexEncode (bs : Bytes) : ∀ c ∈ hexEncode bs, IsLowerHex c := by
  intro c hc
  simp only [hexEncode, List.mem_flatMap] at hc
  obtain ⟨b, _, hb⟩ := hc
  have := b.toNat_lt
  simp only [List.mem_cons, List.not_mem_nil, or_false] at hb
  rcases hb with rfl | rfl
  · exact lower_hexChar (by omega)
  · exact lower_hexChar (by omega)

theorem length_hexEncode (bs : Bytes) : (hexEncode bs).length = 2 * bs.length := by
  induction bs with
  | nil => rfl
  | cons b bs ih =>
    have : hexEncode (b :: bs) = [hexChar (b.toNat / 16), hexChar (b.toNat % 16)] ++ hexEncode bs := rfl
    rw [this, List.length_append, ih]; simp; omega

theorem sixteen {u : Bytes} (h : u.length = 16) : ∃ b0 b1 b2 b3 b4 b5 b6 b7 b8 b9 b10 b11 b12 b13 b14 b15,
    u = [b0, b1, b2, b3, b4, b5, b6, b7, b8, b9, b10, b11, b12, b13, b14, b15] := by
  match u, h with
  | [b0, b1, b2, b3, b4, b5, b6, b7, b8, b9, b10, b11, b12, b13, b14, b15], _ =>
    exact ⟨b0, b1, b2, b3, b4, b5, b6, b7, b8, b9, b10, b11, b12, b13, b14, b15, rfl⟩

theorem writes (g1 g2 g3 g4 g5 : Bytes) (l1 : g1.length = 8) (l2 : g2.length = 4) (l3 : g3.length = 4) (l4 : g4.length = 4)
    (l5 : g5.length = 12) :
    writeAt ((writeAt ((writeAt ((writeAt ((writeAt (List.replicate 36 0) 0 g1).set 8 45) 9 g2).set 13 45) 14 g3).set 18 45) 19 g4).set 23 45) 24 g5
      = g1 ++ 45 :: (g2 ++ 45 :: (g3 ++ 45 :: (g4 ++ 45 :: g5))) := by
  match g1, l1 with
  | [_, _, _, _, _, _, _, _], _ =>
    match g2, l2 with
    | [_, _, _, _], _ =>
      match g3, l3 with
      | [_, _, _, _], _ =>
        match g4, l4 with
        | [_, _, _, _], _ => simp [writeAt, l5, List.replicate]

theorem text_grouped {u : Bytes} (h : u.length = 16) :
    Grouped (text u) (hexEncode (slice u 0 4)) (hexEncode (slice u 4 6)) (hexEncode (slice u 6 8)) (hexEncode (slice u 8 10))
      (hexEncode (u.drop 10)) 45 45 45 45 := by
  have k1 : (hexEncode (slice u 0 4)).length = 8 := by simp [length_hexEncode, slice, h]
  have k2 : (hexEncode (slice u 4 6)).length = 4 := by simp [length_hexEncode, slice, h]
  have k3 : (hexEncode (slice u 6 8)).length = 4 := by simp [length_hexEncode, slice, h]
  have k4 : (hexEncode (slice u 8 10)).length = 4 := by simp [length_hexEncode, slice, h]
  have k5 : (hexEncode (u.drop 10)).length = 12 := by simp [length_hexEncode, h]
  exact ⟨writes _ _ _ _ _ k1 k2 k3 k4 k5, k1, k2, k3, k4, k5⟩

theorem hexEncode_append (a b : Bytes) : hexEncode (a ++ b) = hexEncode a ++ hexEncode b := by
  simp [hexEncode]

theorem slices {u : Bytes} (h : u.length = 16) : slice u 0 4 ++ slice u 4 6 ++ slice u 6 8 ++ slice u 8 10 ++ u.drop 10 = u := by
  obtain ⟨b0, b1, b2, b3, b4, b5, b6, b7, b8, b9, b10, b11, b12, b13, b14, b15, rfl⟩ := sixteen h
  rfl

theorem grouped_strip {s g1 g2 g3 g4 g5 : Bytes} {s1 s2 s3 s4 : UInt8} (h : Grouped s g1 g2 g3 g4 g5 s1 s2 s3 s4) :
    s.length = 36 ∧ slice s 0 8 ++ slice s 9 13 ++ slice s 14 18 ++ slice s 19 23 ++ s.drop 24 = g1 ++ g2 ++ g3 ++ g4 ++ g5 := by
  obtain ⟨rfl, l1, l2, l3, l4, l5⟩ := h
  match g1, l1, g2, l2, g3, l3, g4, l4 with
  | [_, _, _, _, _, _, _, _], _, [_, _, _, _], _, [_, _, _, _], _, [_, _, _, _], _ =>
    refine ⟨by simp [l5], ?_⟩
    simp [slice]

theorem drop_getD (s : Bytes) (i : Nat) (h : i < s.length) : s.drop i = s.getD i 0 :: s.drop (i + 1) := by
  rw [List.drop_eq_getElem_cons h]; simp [h]

theorem drop_slice (s : Bytes) (i j : Nat) (h : i ≤ j) : s.drop i = slice s i j ++ s.drop j := by
  have := List.take_append_drop (j - i) (s.drop i)
  rw [List.drop_drop, show i + (j - i) = j by omega] at this
  exact this.symm

theorem grouped_of_length {s : Bytes} (h : s.length = 36) :
    Grouped s (slice s 0 8) (slice s 9 13) (slice s 14 18) (slice s 19 23) (s.drop 24) (s.getD 8 0) (s.getD 13 0) (s.getD 18 0) (s.getD 23 0) := by
  refine ⟨?_, by simp [slice, h], by simp [slice, h], by simp [slice, h], by simp [slice, h], by simp [h]⟩
  have e := drop_slice s 0 8 (by omega)
  rw [drop_getD s 8 (by omega), drop_slice s 9 13 (by omega), drop_getD s 13 (by omega), drop_slice s 14 18 (by omega),
    drop_getD s 18 (by omega), drop_slice s 19 23 (by omega), drop_getD s 23 (by omega)] at e
  exact e

theorem parse_iff (s bs : Bytes) : parse s = some bs ↔
    ∃ g1 g2 g3 g4 g5 s1 s2 s3 s4, Grouped s g1 g2 g3 g4 g5 s1 s2 s3 s4 ∧ Spells (g1 ++ g2 ++ g3 ++ g4 ++ g5) bs := by
  unfold parse
  constructor
  · intro h
    split at h
    · cases h
    · rename_i hl
      have hl : s.length = 36 := by simpa using hl
      exact ⟨_, _, _, _, _, _, _, _, _, grouped_of_length hl, (hexDecode_iff _ _).1 h⟩
  · rintro ⟨g1, g2, g3, g4, g5, s1, s2, s3, s4, hg, hs⟩
    obtain ⟨hl, he⟩ := grouped_strip hg
    rw [if_neg (by simpa using hl), he]
    exact (hexDecode_iff _ _).2 hs

/-! ### Generated UUIDs -/

theorem length_int64ToBytes (n : BitVec 64) : (int64ToBytes n).length = 8 := by simp [int64ToBytes]

theorem mk_eq (h q : BitVec 64) : ∃ a0 a1 a2 a3 a4 a5 a6 a7 c0 c1 c2 c3 c4 c5 c6 c7,
    int64ToBytes h = [a0, a1, a2, a3, a4, a5, a6, a7] ∧ int64ToBytes q = [c0, c1, c2, c3, c4, c5, c6, c7] ∧
    mk h q = [a0, a1, a2, a3, a4, a5, (a6 &&& 0x0f) ||| 0x40, a7, (c0 &&& 0x3f) ||| 0x80, c1, c2, c3, c4, c5, c6, c7] := by
  refine ⟨_, _, _, _, _, _, _, _, _, _, _, _, _, _, _, _, rfl, rfl, rfl⟩

theorem mask3f (c : UInt8) : ((c &&& 0x3f) ||| 0x80).toNat = c.toNat % 64 + 128 := by
  have : ∀ n : Fin 256, (((UInt8.ofNat n.val) &&& 0x3f) ||| 0x80).toNat = n.val % 64 + 128 := by decide +kernel
  have h := this ⟨c.toNat, c.toNat_lt⟩
  simpa using h

theorem mask0f (c : UInt8) : ((c &&& 0x0f) ||| 0x40).toNat = c.toNat % 16 + 64 := by
  have : ∀ n : Fin 256, (((UInt8.ofNat n.val) &&& 0x0f) ||| 0x40).toNat = n.val % 16 + 64 := by decide +kernel
  have h := this ⟨c.toNat, c.toNat_lt⟩
  simpa using h

theorem beValue_int64 (q : BitVec 64) : beValue (int64ToBytes q) = q.toNat := by
  rw [int64ToBytes_eq, beValue_beBytes]
  exact Nat.mod_eq_of_lt q.isLt

/-- The low 62 bits of the sequence number can be read off a generated UUID. -/
theorem mk_seq (h h' q q' : BitVec 64) (e : mk h q = mk h' q') : q.toNat % 2 ^ 62 = q'.toNat % 2 ^ 62 := by
  obtain ⟨a0, a1, a2, a3, a4, a5, a6, a7, c0, c1, c2, c3, c4, c5, c6, c7, _, hq, hm⟩ := mk_eq h q
  obtain ⟨b0, b1, b2, b3, b4, b5, b6, b7, d0, d1, d2, d3, d4, d5, d6, d7, _, hq', hm'⟩ := mk_eq h' q'
  rw [hm, hm'] at e
  simp only [List.cons.injEq, and_true] at e
  obtain ⟨_, _, _, _, _, _, _, _, e8, rfl, rfl, rfl, rfl, rfl, rfl, rfl⟩ := e
  have h1 := congrArg UInt8.toNat e8
  rw [mask3f, mask3f] at h1
  have v := beValue_int64 q
  have v' := beValue_int64 q'
  rw [hq, beValue_cons] at v
  rw [hq', beValue_cons] at v'
  have hlt := beValue_lt [c1, c2, c3, c4, c5, c6, c7]
  simp only [List.length_cons, List.length_nil] at v v' hlt
  generalize beValue [c1, c2, c3, c4, c5, c6, c7] = r at v v' hlt
  norm_num at v v' hlt ⊢
  omega

/-- `Int64` of a generated UUID: the version nibble is fixed. -/
theorem mk_int64 (h q : BitVec 64) : (toInt64 (mk h q)).toNat / 2 ^ 12 % 16 = 4 := by
  obtain ⟨a0, a1, a2, a3, a4, a5, a6, a7, c0, c1, c2, c3, c4, c5, c6, c7, _, hq, hm⟩ := mk_eq h q
  rw [toInt64, bytesToInt64_toNat, hm]
  simp only [List.take_succ_cons, List.take_zero]
  rw [show [a0, a1, a2, a3, a4, a5, (a6 &&& 0x0f) ||| 0x40, a7] = [a0, a1, a2, a3, a4, a5] ++ [(a6 &&& 0x0f) ||| 0x40, a7] from rfl, beValue_append]
  have := a7.toNat_lt
  simp only [beValue_cons, beValue_nil, mask0f, List.length_cons, List.length_nil]
  generalize beValue [a0, a1, a2, a3, a4, a5] = x
  norm_num
  omega

theorem nodup_length_le (l : List Nat) (hn : l.Nodup) (N : Nat) (h : ∀ x ∈ l, x < N) : l.length ≤ N := by
  have := (List.subperm_of_subset hn (l₂ := List.range N) fun x hx => List.mem_range.2 (h x hx)).length_le
  simpa using this

theorem int64ToBytes_split (q : BitVec 64) : int64ToBytes q = (q.toNat / 72057594037927936).toUInt8 :: beBytes 7 q.toNat := by
  apply beValue_inj
  · simp [int64ToBytes, beBytes_length]
  · rw [beValue_int64, beValue_cons, beValue_beBytes, beBytes_length]
    have := q.isLt
    norm_num [Nat.toUInt8]
    omega

theorem toNat_wrap (seq : BitVec 64) : (seq + 0x4000000000000000).toNat = (seq.toNat + 4611686018427387904) % 18446744073709551616 := by
  rw [BitVec.toNat_add]; rfl
theorem low_wrap (seq : BitVec 64) : beBytes 7 (seq + 0x4000000000000000).toNat = beBytes 7 seq.toNat := by
  rw [toNat_wrap]
  apply beValue_inj
  · simp [beBytes_length]
  · rw [beValue_beBytes, beValue_beBytes]
    norm_num
    omega
theorem top_wrap (seq : BitVec 64) : ((seq + 0x4000000000000000).toNat / 72057594037927936).toUInt8.toNat % 64 = (seq.toNat / 72057594037927936).toUInt8.toNat % 64 := by
  rw [toNat_wrap]
  have := seq.isLt
  simp only [Nat.toUInt8, UInt8.toNat_ofNat']
  norm_num at this
  omega
theorem mask_wrap (a b : UInt8) (c l : List UInt8) (hl : l.length = 8) (h : a.toNat % 64 = b.toNat % 64) :
   (let u := l ++ a :: c
  let u := u.set 6 ((u.getD 6 0 &&& 0x0f) ||| 0x40)
  u.set 8 ((u.getD 8 0 &&& 0x3f) ||| 0x80)) = (let u := l ++ b :: c
  let u := u.set 6 ((u.getD 6 0 &&& 0x0f) ||| 0x40)
  u.set 8 ((u.getD 8 0 &&& 0x3f) ||| 0x80)) := by
  have : (a &&& 0x3f) ||| 0x80 = (b &&& 0x3f) ||| 0x80 := by
    apply UInt8.toNat_inj.1
    rw [mask3f, mask3f, h]
  match l, hl with
  | [l0, l1, l2, l3, l4, l5, l6, l7], _ =>
    simp [this]
theorem mk_wrap (h seq : BitVec 64) : mk h (seq + 0x4000000000000000) = mk h seq := by
  have := mask_wrap _ _ (beBytes 7 seq.toNat) (int64ToBytes h) (length_int64ToBytes h) (top_wrap seq)
  unfold mk
  rw [int64ToBytes_split (seq + _), low_wrap, int64ToBytes_split seq]
  exact this

/-! ### Concurrent calls -/

structure Inv {n : Nat} (q0 : BitVec 64) (k : Nat) (s : St n) (tags : List Nat) (idx : Fin n → Option Nat) : Prop where
  seq : s.seq = q0 + BitVec.ofNat 64 k
  held : ∀ t, s.held t = (idx t).map fun i => q0 + BitVec.ofNat 64 i
  out : List.Forall₂ (fun u i => ∃ h, u = mk h (q0 + BitVec.ofNat 64 i)) s.out tags
  nodup : tags.Nodup
  inj : ∀ t t' i, idx t = some i → idx t' = some i → t = t'
  disj : ∀ t i, idx t = some i → i ∉ tags
  le : ∀ i ∈ tags, 1 ≤ i ∧ i ≤ k
  le' : ∀ t i, idx t = some i → 1 ≤ i ∧ i ≤ k

theorem inv_exec {n : Nat} (q0 : BitVec 64) (as : List (Act n)) (k : Nat) (s s' : St n) (tags : List Nat) (idx : Fin n → Option Nat)
    (h : Inv q0 k s tags idx) (he : exec s as = some s') : ∃ tags' idx', Inv q0 (k + starts as) s' tags' idx' := by
  induction as generalizing k s tags idx with
  | nil => simp only [exec, Option.some.injEq] at he; subst he; exact ⟨tags, idx, h⟩
  | cons a as ih =>
    simp only [exec] at he
    cases a with
    | add t =>
      cases hh : s.held t with
      | some q => simp [act, hh] at he
      | none =>
        simp only [act, hh] at he
        have ht : idx t = none := by
          have := h.held t
          rw [hh] at this
          cases hi : idx t with
          | none => rfl
          | some i => simp [hi] at this
        have hinv : Inv q0 (k + 1) { s with seq := s.seq + 1, held := fun i => if i = t then some (s.seq + 1) else s.held i } tags
            (fun i => if i = t then some (k + 1) else idx i) := by
          have hseq : s.seq + 1 = q0 + BitVec.ofNat 64 (k + 1) := by
            rw [h.seq, BitVec.ofNat_add, BitVec.add_assoc]; rfl
          refine ⟨hseq, fun t' => ?_, h.out, h.nodup, ?_, ?_, fun i hi => ?_, ?_⟩
          · dsimp only
            split
            · simp only [Option.map_some, ← hseq]
            · exact h.held t'
          · intro t1 t2 i h1 h2
            split at h1 <;> split at h2
            · rename_i e1 e2; rw [e1, e2]
            · simp only [Option.some.injEq] at h1
              have := h.le' t2 i h2; omega
            · simp only [Option.some.injEq] at h2
              have := h.le' t1 i h1; omega
            · exact h.inj t1 t2 i h1 h2
          · intro t1 i h1 hm
            split at h1
            · simp only [Option.some.injEq] at h1
              have := h.le i hm; omega
            · exact h.disj t1 i h1 hm
          · have := h.le i hi; omega
          · intro t1 i h1
            split at h1
            · simp only [Option.some.injEq] at h1; omega
            · have := h.le' t1 i h1; omega
        obtain ⟨tags', idx', hr⟩ := ih (k + 1) _ tags _ hinv he
        refine ⟨tags', idx', ?_⟩
        rw [show k + starts (Act.add t :: as) = k + 1 + starts as by simp only [starts]; omega]
        exact hr
    | finish t h64 =>
      cases hh : s.held t with
      | none => simp [act, hh] at he
      | some q =>
        simp only [act, hh] at he
        obtain ⟨i, hi, hq⟩ : ∃ i, idx t = some i ∧ q = q0 + BitVec.ofNat 64 i := by
          have := h.held t
          rw [hh] at this
          cases hi : idx t with
          | none => simp [hi] at this
          | some i => simp only [hi, Option.map_some, Option.some.injEq] at this; exact ⟨i, rfl, this⟩
        have hinv : Inv q0 k { s with held := fun i => if i = t then none else s.held i, out := mk h64 q :: s.out } (i :: tags)
            (fun i => if i = t then none else idx i) := by
          refine ⟨h.seq, fun t' => ?_, ?_, ?_, ?_, ?_, fun j hj => ?_, ?_⟩
          · dsimp only
            split
            · rfl
            · exact h.held t'
          · exact List.Forall₂.cons ⟨h64, by rw [hq]⟩ h.out
          · exact List.nodup_cons.2 ⟨h.disj t i hi, h.nodup⟩
          · intro t1 t2 j h1 h2
            split at h1
            · cases h1
            · split at h2
              · cases h2
              · exact h.inj t1 t2 j h1 h2
          · intro t1 j h1 hm
            split at h1
            · cases h1
            · rename_i hne
              rcases List.mem_cons.1 hm with e | hm
              · rw [e] at h1; exact hne (h.inj t1 t i h1 hi)
              · exact h.disj t1 j h1 hm
          · rcases List.mem_cons.1 hj with e | hj
            · rw [e]; exact h.le' t i hi
            · exact h.le j hj
          · intro t1 j h1
            split at h1
            · cases h1
            · exact h.le' t1 j h1
        exact ih k _ _ _ hinv he

theorem inv_init (n : Nat) (q0 : BitVec 64) : Inv q0 0 (init n q0) [] (fun _ => none) :=
  ⟨by simp [init], fun _ => rfl, .nil, List.nodup_nil, by simp, by simp, by simp, by simp⟩

theorem forall₂_nodup {q0 : BitVec 64} {out : List Bytes} {tags : List Nat}
    (h : List.Forall₂ (fun u i => ∃ h, u = mk h (q0 + BitVec.ofNat 64 i)) out tags) (hn : tags.Nodup)
    (hle : ∀ i ∈ tags, 1 ≤ i ∧ i ≤ 2 ^ 62) : out.Nodup := by
  induction h with
  | nil => exact List.nodup_nil
  | @cons u i out tags hu hr ih =>
    rw [List.nodup_cons] at hn ⊢
    refine ⟨fun hm => ?_, ih hn.2 fun j hj => hle j (List.mem_cons_of_mem _ hj)⟩
    have : ∀ u, u ∈ out → ∃ j ∈ tags, ∃ h, u = mk h (q0 + BitVec.ofNat 64 j) := by
      clear ih hn hle hm
      induction hr with
      | nil => simp
      | @cons a b l1 l2 h1 h2 ih =>
        intro u hu
        rcases List.mem_cons.1 hu with rfl | hu
        · exact ⟨b, by simp, h1⟩
        · obtain ⟨j, hj, hh⟩ := ih u hu
          exact ⟨j, List.mem_cons_of_mem _ hj, hh⟩
    obtain ⟨j, hj, h', e'⟩ := this u hm
    obtain ⟨h'', e''⟩ := hu
    have hs := mk_seq h'' h' _ _ (e''.symm.trans e')
    have hi := hle i (by simp)
    have hj' := hle j (List.mem_cons_of_mem _ hj)
    have hne : i ≠ j := by rintro rfl; exact hn.1 hj
    simp only [BitVec.toNat_add, BitVec.toNat_ofNat] at hs
    have := q0.isLt
    norm_num at hs hi hj'
    omega

end Gofer.Uuid
