import Verif.Model.Thrift
import Mathlib.Algebra.Order.Ring.Nat
import Mathlib.Tactic.Ring

namespace Gofer.Thrift
open Gofer.Spec.Thrift

theorem toUInt8_toNat {n : Nat} (h : n < 256) : n.toUInt8.toNat = n := by
  simp [Nat.toUInt8]; omega

theorem readVarint_go (f n : Nat) (r : Bytes) (h : n < 128 ^ (f + 1)) : readVarint (varintGo f n ++ r) = some (n, r) := by
  induction f generalizing n with
  | zero =>
    simp only [Nat.zero_add, pow_one] at h
    simp only [varintGo, List.cons_append, List.nil_append, readVarint]
    rw [toUInt8_toNat (by omega), if_pos h]
  | succ f ih =>
    simp only [varintGo]
    by_cases hn : n < 128
    · rw [if_pos hn]
      simp only [List.cons_append, List.nil_append, readVarint]
      rw [toUInt8_toNat (by omega), if_pos hn]
    · rw [if_neg hn]
      have hd : n / 128 < 128 ^ (f + 1) := by
        rw [pow_succ] at h
        exact Nat.div_lt_of_lt_mul (by rw [Nat.mul_comm]; exact h)
      simp only [List.cons_append, readVarint]
      rw [toUInt8_toNat (by omega), if_neg (by omega), ih _ hd]
      simp only [Option.some.injEq, Prod.mk.injEq, and_true]
      omega

theorem lt_pow_self (n : Nat) : n < 128 ^ (n + 1) := by
  have := Nat.lt_pow_self (n := n + 1) (show 1 < 128 by omega)
  omega

theorem readVarint_varint (n : Nat) (r : Bytes) : readVarint (varint n ++ r) = some (n, r) :=
  readVarint_go n n r (lt_pow_self n)

theorem varintGo_fuel (f g n : Nat) (hf : n < 128 ^ (f + 1)) (hg : n < 128 ^ (g + 1)) : varintGo f n = varintGo g n := by
  induction f generalizing g n with
  | zero =>
    simp only [Nat.zero_add, pow_one] at hf
    cases g with
    | zero => rfl
    | succ g => simp only [varintGo]; rw [if_pos hf]
  | succ f ih =>
    cases g with
    | zero =>
      simp only [Nat.zero_add, pow_one] at hg
      simp only [varintGo]; rw [if_pos hg]
    | succ g =>
      simp only [varintGo]
      by_cases hn : n < 128
      · rw [if_pos hn, if_pos hn]
      · rw [if_neg hn, if_neg hn]
        rw [pow_succ] at hf hg
        rw [ih g (n / 128) (Nat.div_lt_of_lt_mul (by rw [Nat.mul_comm]; exact hf)) (Nat.div_lt_of_lt_mul (by rw [Nat.mul_comm]; exact hg))]

theorem writeVarintGo_eq (f n : Nat) : writeVarintGo f n = varintGo f n := by
  induction f generalizing n with
  | zero => rfl
  | succ f ih => simp only [writeVarintGo, varintGo, ih]

theorem writeVarint32_eq {n : Nat} (h : n < 2 ^ 32) : writeVarint32 n = varint n := by
  rw [writeVarint32, Nat.mod_eq_of_lt h, writeVarintGo_eq]
  refine varintGo_fuel _ _ _ (Nat.lt_trans h (by decide)) (lt_pow_self n)

theorem varint_ne_nil (n : Nat) : varint n ≠ [] := by
  unfold varint
  cases n with
  | zero => simp [varintGo]
  | succ n => simp only [varintGo]; split <;> simp

theorem readSize_varint {limit n : Nat} (hl : limit < 2 ^ 31) (hn : n ≤ limit) (r : Bytes) :
    readSize limit (varint n ++ r) = some (n, r) := by
  simp only [readSize, readVarint_varint]
  have hb : ((n : Int)).bmod (2 ^ 32) = n := by
    rw [Int.bmod_eq_of_le] <;> norm_num <;> omega
  rw [hb, if_neg (by omega)]
  simp

theorem readString_spec {limit : Nat} (hl : limit < 2 ^ 31) (s r : Bytes) (hs : s.length ≤ limit) :
    readString limit ((varint s.length ++ s) ++ r) = some (s, r) := by
  simp only [readString, List.append_assoc, readSize_varint hl hs]
  rw [if_neg (by simp)]
  simp

theorem unzigzag_zigzag (z : Int) : unzigzag (zigzag z) = z := by
  unfold unzigzag zigzag
  split <;> split <;> omega

theorem readI16_spec {id : Int} (h : -32768 ≤ id ∧ id < 32768) (r : Bytes) : readI16 (varint (zigzag id) ++ r) = some (id, r) := by
  simp only [readI16, readVarint_varint]
  have : zigzag id < 2 ^ 32 := by
    unfold zigzag; split <;> norm_num <;> omega
  rw [Nat.mod_eq_of_lt this, unzigzag_zigzag, Int.bmod_eq_of_le (by norm_num; omega) (by norm_num; omega)]

theorem code_bounds (t : TType) : 1 ≤ t.code ∧ t.code ≤ 12 := by cases t <;> decide
theorem getTType_code (t : TType) : getTType t.code = some t := by cases t <;> rfl

theorem fieldCode_bounds (v : TVal) : 1 ≤ fieldCode v ∧ fieldCode v ≤ 12 := by
  cases v with
  | bool b => cases b <;> decide
  | _ => simp [fieldCode, TVal.type, TType.code]

theorem getTType_fieldCode (v : TVal) : getTType (fieldCode v) = some v.type := by
  cases v with
  | bool b => cases b <;> rfl
  | _ => rfl

theorem readFieldBegin_spec {last id : Int} (_ : -32768 ≤ last ∧ last < 32768) (hi : -32768 ≤ id ∧ id < 32768)
    {code : Nat} {t : TType} (hc : 1 ≤ code ∧ code ≤ 12) (ht : getTType code = some t) (r : Bytes) :
    readFieldBegin last (fieldHeader last id code ++ r) = some (some (t, id), r) := by
  unfold fieldHeader
  split
  · rename_i h
    have hk : (id - last).toNat * 16 + code < 256 := by omega
    simp only [readFieldBegin, List.cons_append, List.nil_append, readByte, toUInt8_toNat hk]
    rw [if_neg (by omega), if_neg (by omega)]
    have h1 : ((id - last).toNat * 16 + code) / 16 = (id - last).toNat := by omega
    have h2 : ((id - last).toNat * 16 + code) % 16 = code := by omega
    have h3 : last + ((id - last).toNat : Int) = id := by omega
    rw [h1, h2, h3, Int.bmod_eq_of_le (by norm_num; omega) (by norm_num; omega)]
    simp only [ht]
  · have hk : code < 256 := by omega
    simp only [readFieldBegin, List.cons_append, readByte, toUInt8_toNat hk]
    rw [if_neg (by omega), if_pos (by omega), readI16_spec hi]
    have h2 : code % 16 = code := by omega
    simp only [h2, ht]

theorem readFieldBegin_stop (last : Int) (r : Bytes) : readFieldBegin last (0 :: r) = some (none, r) := rfl

theorem readMapBegin_spec {limit : Nat} (hl : limit < 2 ^ 31) (kt vt : TType) {n : Nat} (hn : n ≤ limit) (r : Bytes) :
    readMapBegin limit (mapHeader kt vt n ++ r) = some (if n = 0 then (none, none, 0) else (some kt, some vt, n), r) := by
  unfold mapHeader
  split
  · rename_i h
    subst h
    have := readSize_varint (limit := limit) hl (Nat.zero_le _) r
    simp only [readMapBegin]
    rw [show ([0] ++ r : Bytes) = varint 0 ++ r from rfl, this]
    simp
  · rename_i h
    simp only [readMapBegin, List.append_assoc, readSize_varint hl hn]
    have hk := code_bounds kt; have hv := code_bounds vt
    rw [if_neg h]
    simp only [List.cons_append, List.nil_append, readByte]
    rw [toUInt8_toNat (by omega), show (kt.code * 16 + vt.code) / 16 = kt.code by omega,
      show (kt.code * 16 + vt.code) % 16 = vt.code by omega, getTType_code, getTType_code]

theorem readListBegin_spec {limit : Nat} (hl : limit < 2 ^ 31) (t : TType) {n : Nat} (hn : n ≤ limit) (r : Bytes) :
    readListBegin limit (listHeader t n ++ r) = some ((t, n), r) := by
  have hk := code_bounds t
  unfold listHeader
  split
  · simp only [readListBegin, List.cons_append, List.nil_append, readByte]
    rw [toUInt8_toNat (by omega), show (n * 16 + t.code) / 16 = n by omega, show (n * 16 + t.code) % 16 = t.code by omega,
      if_neg (by omega), if_neg (by omega)]
    simp only [getTType_code]
  · simp only [readListBegin, List.cons_append, readByte]
    rw [toUInt8_toNat (by omega), show (15 * 16 + t.code) / 16 = 15 by omega, show (15 * 16 + t.code) % 16 = t.code by omega,
      if_pos rfl, readSize_varint hl hn]
    simp only [getTType_code]

/-! ### Skipping -/

def fieldsLen : TFields → Nat
  | .nil => 0
  | .cons _ _ r => fieldsLen r + 1

theorem fieldHeader_len (last id : Int) (c : Nat) : 1 ≤ (fieldHeader last id c).length := by
  unfold fieldHeader; split <;> simp

theorem fieldsLen_le (last : Int) (fs : TFields) : fieldsLen fs + 1 ≤ (encFields last fs).length := by
  match fs with
  | .nil => simp [fieldsLen, encFields]
  | .cons id v rest =>
    have := fieldsLen_le id rest
    have := fieldHeader_len last id (fieldCode v)
    simp only [fieldsLen, encFields, List.length_append]
    omega

theorem skip_bool (limit d : Nat) (hd : 0 < d) (bs : Bytes) : skip limit d (some .bool) true bs = some bs := by
  obtain ⟨d, rfl⟩ : ∃ k, d = k + 1 := ⟨d - 1, by omega⟩
  simp [skip]

theorem okVal_pos {limit d : Nat} {v : TVal} (h : okVal limit d v) : 0 < d := by
  cases v <;> simp only [okVal] at h <;> first | exact h | exact h.1

theorem skipBytes_append (a r : Bytes) {n : Nat} (h : a.length = n) : skipBytes n (a ++ r) = some r := by
  unfold skipBytes
  rw [if_neg (by simp; omega), ← h]
  simp

mutual
theorem skip_val {limit : Nat} (hl : limit < 2 ^ 31) (v : TVal) (d d' : Nat) (h : okVal limit d v) (hd : d ≤ d') (r : Bytes) :
    skip limit d' (some v.type) false (encVal v ++ r) = some r := by
  have h0 := okVal_pos h
  obtain ⟨d', rfl⟩ : ∃ k, d' = k + 1 := ⟨d' - 1, by omega⟩
  match v with
  | .bool b => simp [encVal, skip, TVal.type, skipBytes]
  | .byte b => simp [encVal, skip, TVal.type, skipBytes]
  | .i16 z => simp [encVal, skip, TVal.type, readVarint_varint]
  | .i32 z => simp [encVal, skip, TVal.type, readVarint_varint]
  | .i64 z => simp [encVal, skip, TVal.type, readVarint_varint]
  | .double bs =>
    simp only [encVal, skip, TVal.type]
    exact skipBytes_append _ _ (by simp only [okVal] at h; exact h.2)
  | .str s =>
    simp only [okVal] at h
    simp only [encVal, skip, TVal.type]
    rw [readString_spec hl s r h.2]; rfl
  | .struct fs =>
    simp only [okVal] at h
    simp only [encVal, skip, TVal.type]
    refine skip_fields hl fs (d - 1) d' h.2 (by omega) 0 (by omega) _ ?_ r
    have := fieldsLen_le 0 fs
    simp only [List.length_append]; omega
  | .map kt vt es =>
    simp only [okVal] at h
    simp only [encVal, skip, TVal.type, List.append_assoc, readMapBegin_spec hl kt vt h.2.1]
    by_cases hn : es.length = 0
    · rw [if_pos hn]
      cases es with
      | nil => simp [encPairs, repeatN]
      | cons => simp [TPairs.length] at hn
    · rw [if_neg hn]
      exact skip_pairs hl kt vt es (d - 1) d' h.2.2 (by omega) r
  | .list t es =>
    simp only [okVal] at h
    simp only [encVal, skip, TVal.type, List.append_assoc, readListBegin_spec hl t h.2.1]
    exact skip_vals hl t es (d - 1) d' h.2.2 (by omega) r
  | .set t es =>
    simp only [okVal] at h
    simp only [encVal, skip, TVal.type, List.append_assoc, readListBegin_spec hl t h.2.1]
    exact skip_vals hl t es (d - 1) d' h.2.2 (by omega) r

theorem skip_fields {limit : Nat} (hl : limit < 2 ^ 31) (fs : TFields) (d d' : Nat) (h : okFields limit d fs) (hd : d ≤ d')
    (last : Int) (hlast : -32768 ≤ last ∧ last < 32768) (fuel : Nat) (hf : fieldsLen fs < fuel) (r : Bytes) :
    skipFields (fun t p => skip limit d' (some t) p) fuel last (encFields last fs ++ r) = some r := by
  obtain ⟨fuel, rfl⟩ : ∃ k, fuel = k + 1 := ⟨fuel - 1, by omega⟩
  match fs with
  | .nil => simp [encFields, skipFields, readFieldBegin_stop]
  | .cons id v rest =>
    simp only [okFields] at h
    simp only [fieldsLen] at hf
    simp only [encFields, skipFields, List.append_assoc]
    rw [readFieldBegin_spec hlast h.1 (fieldCode_bounds v) (getTType_fieldCode v)]
    simp only
    have hrest := skip_fields hl rest d d' h.2.2 hd id h.1 fuel (by omega) r
    by_cases hb : v.type = .bool
    · rw [if_pos hb, hb]
      simp only [decide_true, List.nil_append]
      rw [skip_bool limit d' (by have := okVal_pos h.2.1; omega)]
      exact hrest
    · rw [if_neg hb]
      simp only [hb, decide_false]
      rw [skip_val hl v d d' h.2.1 hd]
      exact hrest

theorem skip_pairs {limit : Nat} (hl : limit < 2 ^ 31) (kt vt : TType) (es : TPairs) (d d' : Nat) (h : okPairs limit d kt vt es)
    (hd : d ≤ d') (r : Bytes) :
    repeatN (fun b => match skip limit d' (some kt) false b with
      | some b => skip limit d' (some vt) false b
      | none => none) es.length (encPairs es ++ r) = some r := by
  match es with
  | .nil => simp [encPairs, TPairs.length, repeatN]
  | .cons k v rest =>
    simp only [okPairs] at h
    simp only [encPairs, TPairs.length, repeatN, List.append_assoc]
    rw [← h.1.1, ← h.1.2, skip_val hl k d d' h.2.1 hd]
    simp only
    rw [skip_val hl v d d' h.2.2.1 hd, h.1.1, h.1.2]
    exact skip_pairs hl kt vt rest d d' h.2.2.2 hd r

theorem skip_vals {limit : Nat} (hl : limit < 2 ^ 31) (t : TType) (es : TVals) (d d' : Nat) (h : okVals limit d t es)
    (hd : d ≤ d') (r : Bytes) :
    repeatN (skip limit d' (some t) false) es.length (encVals es ++ r) = some r := by
  match es with
  | .nil => simp [encVals, TVals.length, repeatN]
  | .cons v rest =>
    simp only [okVals] at h
    simp only [encVals, TVals.length, repeatN, List.append_assoc]
    rw [← h.1, skip_val hl v d d' h.2.1 hd, h.1]
    exact skip_vals hl t rest d d' h.2.2 hd r
end

/-! ### A successful read is not affected by what follows -/

theorem readByte_ext {bs : Bytes} {a r} (s : Bytes) (h : readByte bs = some (a, r)) : readByte (bs ++ s) = some (a, r ++ s) := by
  cases bs with
  | nil => simp [readByte] at h
  | cons b t => simp only [readByte, Option.some.injEq, Prod.mk.injEq] at h; simp [readByte, h.1, h.2]

theorem readVarint_ext {bs : Bytes} {a r} (s : Bytes) (h : readVarint bs = some (a, r)) : readVarint (bs ++ s) = some (a, r ++ s) := by
  induction bs generalizing a r with
  | nil => simp [readVarint] at h
  | cons b t ih =>
    simp only [readVarint, List.cons_append] at h ⊢
    split at h
    · rename_i hb
      rw [if_pos hb]
      simp only [Option.some.injEq, Prod.mk.injEq] at h; simp [h.1, h.2]
    · rename_i hb
      rw [if_neg hb]
      cases hv : readVarint t with
      | none => simp [hv] at h
      | some p =>
        obtain ⟨v, r'⟩ := p
        rw [hv] at h
        rw [ih hv]
        simp only [Option.some.injEq, Prod.mk.injEq] at h ⊢
        exact ⟨h.1, by rw [h.2]⟩

theorem readI16_ext {bs : Bytes} {a r} (s : Bytes) (h : readI16 bs = some (a, r)) : readI16 (bs ++ s) = some (a, r ++ s) := by
  unfold readI16 at h ⊢
  cases hv : readVarint bs with
  | none => simp [hv] at h
  | some p =>
    obtain ⟨v, r'⟩ := p
    rw [hv] at h
    rw [readVarint_ext s hv]
    simp only [Option.some.injEq, Prod.mk.injEq] at h ⊢
    exact ⟨h.1, by rw [h.2]⟩

theorem readSize_ext {limit : Nat} {bs : Bytes} {a r} (s : Bytes) (h : readSize limit bs = some (a, r)) :
    readSize limit (bs ++ s) = some (a, r ++ s) := by
  unfold readSize at h ⊢
  cases hv : readVarint bs with
  | none => simp [hv] at h
  | some p =>
    obtain ⟨v, r'⟩ := p
    rw [hv] at h
    rw [readVarint_ext s hv]
    simp only at h ⊢
    split at h
    · cases h
    · rename_i hc
      rw [if_neg hc]
      simp only [Option.some.injEq, Prod.mk.injEq] at h ⊢
      exact ⟨h.1, by rw [h.2]⟩

theorem readFieldBegin_ext {last : Int} {bs : Bytes} {a r} (s : Bytes) (h : readFieldBegin last bs = some (a, r)) :
    readFieldBegin last (bs ++ s) = some (a, r ++ s) := by
  unfold readFieldBegin at h ⊢
  cases hv : readByte bs with
  | none => simp [hv] at h
  | some p =>
    obtain ⟨t, r'⟩ := p
    rw [hv] at h
    rw [readByte_ext s hv]
    simp only at h ⊢
    split at h
    · rename_i hc
      rw [if_pos hc]
      simp only [Option.some.injEq, Prod.mk.injEq] at h ⊢
      exact ⟨h.1, by rw [h.2]⟩
    · rename_i hc
      rw [if_neg hc]
      by_cases hd : t.toNat / 16 = 0
      · rw [if_pos hd] at h ⊢
        cases hw : readI16 r' with
        | none => simp [hw] at h
        | some q =>
          obtain ⟨id, r''⟩ := q
          rw [hw] at h
          rw [readI16_ext s hw]
          simp only at h ⊢
          cases hg : getTType (t.toNat % 16) with
          | none => simp [hg] at h
          | some ty =>
            rw [hg] at h
            simp only [Option.some.injEq, Prod.mk.injEq] at h ⊢
            exact ⟨h.1, by rw [h.2]⟩
      · rw [if_neg hd] at h ⊢
        simp only at h ⊢
        cases hg : getTType (t.toNat % 16) with
        | none => simp [hg] at h
        | some ty =>
          rw [hg] at h
          simp only [Option.some.injEq, Prod.mk.injEq] at h ⊢
          exact ⟨h.1, by rw [h.2]⟩

theorem readString_ext {limit : Nat} {bs : Bytes} {a r} (s : Bytes) (h : readString limit bs = some (a, r)) :
    readString limit (bs ++ s) = some (a, r ++ s) := by
  unfold readString at h ⊢
  cases hv : readSize limit bs with
  | none => simp [hv] at h
  | some p =>
    obtain ⟨n, r'⟩ := p
    rw [hv] at h
    rw [readSize_ext s hv]
    simp only at h ⊢
    split at h
    · cases h
    · rename_i hc
      have hc' : n ≤ r'.length := by omega
      rw [if_neg (by simp only [List.length_append]; omega), List.take_append_of_le_length hc', List.drop_append_of_le_length hc']
      simp only [Option.some.injEq, Prod.mk.injEq] at h ⊢
      exact ⟨h.1, by rw [h.2]⟩

theorem readMapBegin_ext {limit : Nat} {bs : Bytes} {a r} (s : Bytes) (h : readMapBegin limit bs = some (a, r)) :
    readMapBegin limit (bs ++ s) = some (a, r ++ s) := by
  unfold readMapBegin at h ⊢
  cases hv : readSize limit bs with
  | none => simp [hv] at h
  | some p =>
    obtain ⟨n, r'⟩ := p
    rw [hv] at h
    rw [readSize_ext s hv]
    simp only at h ⊢
    split at h
    · rename_i hc
      rw [if_pos hc]
      simp only [Option.some.injEq, Prod.mk.injEq] at h ⊢
      exact ⟨h.1, by rw [h.2]⟩
    · rename_i hc
      rw [if_neg hc]
      cases hw : readByte r' with
      | none => simp [hw] at h
      | some q =>
        obtain ⟨kv, r''⟩ := q
        rw [hw] at h
        rw [readByte_ext s hw]
        simp only [Option.some.injEq, Prod.mk.injEq] at h ⊢
        exact ⟨h.1, by rw [h.2]⟩

theorem readListBegin_ext {limit : Nat} {bs : Bytes} {a r} (s : Bytes) (h : readListBegin limit bs = some (a, r)) :
    readListBegin limit (bs ++ s) = some (a, r ++ s) := by
  unfold readListBegin at h ⊢
  cases hv : readByte bs with
  | none => simp [hv] at h
  | some p =>
    obtain ⟨st, r'⟩ := p
    rw [hv] at h
    rw [readByte_ext s hv]
    simp only at h ⊢
    have key : ∀ q : Option (Nat × Bytes), (match q with
        | none => none
        | some (n, r) => match getTType (st.toNat % 16) with
          | none => none
          | some t => some ((t, n), r)) = some (a, r) → ∃ n t, q = some (n, r) ∧ getTType (st.toNat % 16) = some t ∧ a = (t, n) := by
      rintro (_ | ⟨n, r⟩) hq
      · cases hq
      · cases hg : getTType (st.toNat % 16) with
        | none => simp [hg] at hq
        | some t =>
          simp only [hg, Option.some.injEq, Prod.mk.injEq] at hq
          exact ⟨n, t, by rw [hq.2], rfl, hq.1.symm⟩
    obtain ⟨n, t, e, hg, ha⟩ := key _ h
    split at e
    · rename_i hc
      rw [if_pos hc, readSize_ext s e]
      simp only [hg, ha]
    · rename_i hc
      rw [if_neg hc]
      split at e
      · cases e
      · rename_i hd
        rw [if_neg hd]
        simp only [Option.some.injEq, Prod.mk.injEq] at e
        simp only [hg, ha, e.1, e.2]

theorem skipBytes_ext {n : Nat} {bs r : Bytes} (s : Bytes) (h : skipBytes n bs = some r) : skipBytes n (bs ++ s) = some (r ++ s) := by
  unfold skipBytes at h ⊢
  split at h
  · cases h
  · rename_i hc
    rw [if_neg (by simp only [List.length_append]; omega), List.drop_append_of_le_length (by omega)]
    simp only [Option.some.injEq] at h; rw [h]

/-- A skipper is not affected by what follows. -/
def Ext (f : Bytes → Option Bytes) : Prop := ∀ bs r s, f bs = some r → f (bs ++ s) = some (r ++ s)

theorem repeatN_ext {f : Bytes → Option Bytes} (hf : Ext f) (n : Nat) : Ext (repeatN f n) := by
  induction n with
  | zero => intro bs r s h; simp only [repeatN, Option.some.injEq] at h ⊢; rw [h]
  | succ n ih =>
    intro bs r s h
    simp only [repeatN] at h ⊢
    cases hb : f bs with
    | none => simp [hb] at h
    | some r' =>
      rw [hb] at h
      rw [hf bs r' s hb]
      exact ih r' r s h

theorem skipFields_ext {sk : TType → Bool → Bytes → Option Bytes} (hs : ∀ t p, Ext (sk t p)) (fuel fuel' : Nat) (hf : fuel ≤ fuel')
    (last : Int) (bs r s : Bytes) (h : skipFields sk fuel last bs = some r) : skipFields sk fuel' last (bs ++ s) = some (r ++ s) := by
  induction fuel generalizing fuel' last bs with
  | zero => simp [skipFields] at h
  | succ fuel ih =>
    obtain ⟨fuel', rfl⟩ : ∃ k, fuel' = k + 1 := ⟨fuel' - 1, by omega⟩
    simp only [skipFields] at h ⊢
    cases hb : readFieldBegin last bs with
    | none => simp [hb] at h
    | some p =>
      obtain ⟨x, r'⟩ := p
      rw [hb] at h
      rw [readFieldBegin_ext s hb]
      cases x with
      | none => simp only [Option.some.injEq] at h ⊢; rw [h]
      | some x =>
        obtain ⟨t, id⟩ := x
        simp only at h ⊢
        cases hk : sk t (decide (t = .bool)) r' with
        | none => simp [hk] at h
        | some r'' =>
          rw [hk] at h
          rw [hs _ _ r' r'' s hk]
          exact ih fuel' (by omega) id r'' h

theorem map_snd_ext {α : Type} {f : Bytes → Option (α × Bytes)} (hf : ∀ bs a r s, f bs = some (a, r) → f (bs ++ s) = some (a, r ++ s)) :
    Ext fun bs => (f bs).map Prod.snd := by
  intro bs r s h
  cases hb : f bs with
  | none => simp [hb] at h
  | some p =>
    obtain ⟨a, r'⟩ := p
    simp only [hb, Option.map_some, Option.some.injEq] at h
    simp only [hf bs a r' s hb, Option.map_some, h]

theorem skip_ext (limit d : Nat) : ∀ t p, Ext (skip limit d t p) := by
  induction d with
  | zero => intro t p bs r s h; simp [skip] at h
  | succ d ih =>
    intro t p bs r s h
    cases t with
    | none => simp [skip] at h
    | some t =>
      cases t with
      | bool =>
        simp only [skip] at h ⊢
        split at h
        · rename_i hp; rw [if_pos hp]; simp only [Option.some.injEq] at h ⊢; rw [h]
        · rename_i hp; rw [if_neg hp]; exact skipBytes_ext s h
      | byte => exact skipBytes_ext s h
      | i16 => exact map_snd_ext (fun _ _ _ s h => readVarint_ext s h) bs r s h
      | i32 => exact map_snd_ext (fun _ _ _ s h => readVarint_ext s h) bs r s h
      | i64 => exact map_snd_ext (fun _ _ _ s h => readVarint_ext s h) bs r s h
      | double => exact skipBytes_ext s h
      | string => exact map_snd_ext (fun _ _ _ s h => readString_ext (limit := limit) s h) bs r s h
      | struct =>
        simp only [skip] at h ⊢
        exact skipFields_ext (fun t p => ih (some t) p) _ _ (by simp only [List.length_append]; omega) 0 bs r s h
      | map =>
        simp only [skip] at h ⊢
        cases hb : readMapBegin limit bs with
        | none => simp [hb] at h
        | some q =>
          obtain ⟨⟨kt, vt, n⟩, r'⟩ := q
          rw [hb] at h
          rw [readMapBegin_ext s hb]
          refine repeatN_ext (fun b r s h => ?_) n r' r s h
          cases hk : skip limit d kt false b with
          | none => simp [hk] at h
          | some b' =>
            simp only [hk] at h
            simp only [ih kt false b b' s hk]
            exact ih vt false b' r s h
      | list =>
        simp only [skip] at h ⊢
        cases hb : readListBegin limit bs with
        | none => simp [hb] at h
        | some q =>
          obtain ⟨⟨t, n⟩, r'⟩ := q
          rw [hb] at h
          rw [readListBegin_ext s hb]
          exact repeatN_ext (ih (some t) false) n r' r s h
      | set =>
        simp only [skip] at h ⊢
        cases hb : readListBegin limit bs with
        | none => simp [hb] at h
        | some q =>
          obtain ⟨⟨t, n⟩, r'⟩ := q
          rw [hb] at h
          rw [readListBegin_ext s hb]
          exact repeatN_ext (ih (some t) false) n r' r s h

end Gofer.Thrift
