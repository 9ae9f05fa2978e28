import Verif.Spec.KeyBeanRel
import Verif.Proof.Thrift
import Verif.Proof.AMap
import Mathlib.Data.List.Perm.Subperm

namespace Gofer.KeyBean
open Gofer.Thrift
open Gofer.Spec.Thrift Gofer.Spec.KeyBean
open scoped Classical

/-! ### Reading an encoded struct -/

theorem type_string {v : TVal} (h : v.type = .string) : ∃ s, v = .str s := by
  cases v <;> simp [TVal.type] at h; exact ⟨_, rfl⟩
theorem type_byte {v : TVal} (h : v.type = .byte) : ∃ s, v = .byte s := by
  cases v <;> simp [TVal.type] at h; exact ⟨_, rfl⟩
theorem type_struct {v : TVal} (h : v.type = .struct) : ∃ s, v = .struct s := by
  cases v <;> simp [TVal.type] at h; exact ⟨_, rfl⟩
theorem type_map {v : TVal} (h : v.type = .map) : ∃ k t s, v = .map k t s := by
  cases v <;> simp [TVal.type] at h; exact ⟨_, _, _, rfl⟩

/-- Skipping a field value after its header. -/
theorem skip_field {limit : Nat} (hl : limit < 2 ^ 31) (v : TVal) (d : Nat) (h : okVal limit d v) (hd : d ≤ maxDepth) (r : Bytes) :
    skip limit maxDepth (some v.type) (decide (v.type = .bool)) ((if v.type = .bool then [] else encVal v) ++ r) = some r := by
  by_cases hb : v.type = .bool
  · rw [if_pos hb]
    simp only [hb, decide_true, List.nil_append]
    exact skip_bool limit maxDepth (by decide) r
  · rw [if_neg hb]
    simp only [hb, decide_false]
    exact skip_val hl v d maxDepth h hd r

theorem readUserLoop_spec {limit : Nat} (hl : limit < 2 ^ 31) (fs : TFields) (d : Nat) (h : okFields limit d fs) (hd : d ≤ maxDepth)
    (last : Int) (hlast : -32768 ≤ last ∧ last < 32768) (fuel : Nat) (hf : fieldsLen fs < fuel) (acc : UserAcc) (r : Bytes) :
    readUserLoop limit fuel last acc (encFields last fs ++ r) =
      some (⟨lastStr 1 fs acc.name, lastStr 2 fs acc.pwd, lastByte 3 fs acc.type⟩, r) := by
  obtain ⟨fuel, rfl⟩ : ∃ k, fuel = k + 1 := ⟨fuel - 1, by omega⟩
  match fs with
  | .nil => simp [encFields, readUserLoop, readFieldBegin_stop, lastStr, lastByte]
  | .cons id v rest =>
    simp only [okFields] at h
    simp only [fieldsLen] at hf
    simp only [encFields, readUserLoop, List.append_assoc]
    rw [readFieldBegin_spec hlast h.1 (fieldCode_bounds v) (getTType_fieldCode v)]
    simp only
    have hrest := fun acc => readUserLoop_spec hl rest d h.2.2 hd id h.1 fuel (by omega) acc r
    by_cases hs : v.type = .string
    · obtain ⟨s, rfl⟩ := type_string hs
      have hok := h.2.1
      simp only [okVal] at hok
      simp only [TVal.type, and_true, lastStr, lastByte, encVal, reduceCtorEq, and_false, if_false, Bool.false_eq_true]
      by_cases h1 : id = 1
      · subst h1
        rw [if_pos rfl, readString_spec hl s _ hok.2]
        simp only [hrest, if_true]
        rfl
      · rw [if_neg h1]
        by_cases h2 : id = 2
        · subst h2
          rw [if_pos rfl, readString_spec hl s _ hok.2]
          simp only [hrest, if_true]
          rfl
        · rw [if_neg h2]
          have := skip_field hl (.str s) d h.2.1 hd (encFields id rest ++ r)
          simp only [TVal.type, reduceCtorEq, if_false, encVal] at this
          rw [this]
          simp only [hrest, h1, h2, if_false]
    · rw [if_neg (by tauto), if_neg (by tauto)]
      by_cases hb : v.type = .byte
      · obtain ⟨s, rfl⟩ := type_byte hb
        simp only [TVal.type, and_true, lastStr, lastByte, encVal, reduceCtorEq, if_false]
        by_cases h3 : id = 3
        · subst h3
          rw [if_pos rfl]
          simp only [readByte, List.cons_append, List.nil_append, hrest, if_true]
        · rw [if_neg h3]
          have := skip_field hl (.byte s) d h.2.1 hd (encFields id rest ++ r)
          simp only [TVal.type, reduceCtorEq, if_false, encVal] at this
          rw [this]
          simp only [hrest, h3, if_false]
      · rw [if_neg (by tauto), skip_field hl v d h.2.1 hd]
        simp only [hrest]
        cases v <;> simp_all [TVal.type, lastStr, lastByte]

theorem readUser_spec {limit : Nat} (hl : limit < 2 ^ 31) (fs : TFields) (d : Nat) (h : okFields limit d fs) (hd : d ≤ maxDepth)
    (r : Bytes) : readUser limit (encFields 0 fs ++ r) = (userOf fs).map fun u => (u, r) := by
  unfold readUser userOf
  rw [readUserLoop_spec hl fs d h hd 0 (by omega) _ (by
    have := fieldsLen_le 0 fs; simp only [List.length_append]; omega)]
  cases lastStr 1 fs none <;> cases lastStr 2 fs none <;> cases lastByte 3 fs none <;> rfl

theorem readUsers_spec {limit : Nat} (hl : limit < 2 ^ 31) (es : TPairs) (d : Nat) (h : okPairs limit d .string .struct es)
    (hd : d ≤ maxDepth) (m : UserMap) (f : Bytes → Option User) (hm : ∀ k, m.load k = (f k).map some) (r : Bytes) :
    match usersOf es f with
    | some f' => ∃ m', readUsers limit es.length m (encPairs es ++ r) = some (m', r) ∧ ∀ k, m'.load k = (f' k).map some
    | none => readUsers limit es.length m (encPairs es ++ r) = none := by
  match es with
  | .nil => exact ⟨m, rfl, hm⟩
  | .cons k v rest =>
    simp only [okPairs] at h
    obtain ⟨k, rfl⟩ := type_string h.1.1
    obtain ⟨fs, rfl⟩ := type_struct h.1.2
    have hk := h.2.1; have hv := h.2.2.1
    simp only [okVal] at hk hv
    simp only [usersOf, TPairs.length, readUsers, encPairs, List.append_assoc, encVal]
    have := readString_spec hl k (encFields 0 fs ++ (encPairs rest ++ r)) hk.2
    simp only [List.append_assoc] at this
    rw [this]
    simp only
    rw [readUser_spec hl fs (d - 1) hv.2 (by omega)]
    cases hu : userOf fs with
    | none => simp
    | some u =>
      simp only [Option.map_some]
      exact readUsers_spec hl rest d h.2.2.2 hd (m.store k (some u)) (fun x => if x = k then some u else f x)
        (fun x => by rw [AMap.load_store]; split <;> simp [hm]) r

theorem readStrs_spec {limit : Nat} (hl : limit < 2 ^ 31) (es : TPairs) (d : Nat) (h : okPairs limit d .string .string es)
    (m : StrMap) (f : Bytes → Option Bytes) (hm : ∀ k, m.load k = f k) (r : Bytes) :
    match strsOf es f with
    | some f' => ∃ m', readStrs limit es.length m (encPairs es ++ r) = some (m', r) ∧ ∀ k, m'.load k = f' k
    | none => readStrs limit es.length m (encPairs es ++ r) = none := by
  match es with
  | .nil => exact ⟨m, rfl, hm⟩
  | .cons k v rest =>
    simp only [okPairs] at h
    obtain ⟨k, rfl⟩ := type_string h.1.1
    obtain ⟨v, rfl⟩ := type_string h.1.2
    have hk := h.2.1; have hv := h.2.2.1
    simp only [okVal] at hk hv
    simp only [strsOf, TPairs.length, readStrs, encPairs, List.append_assoc, encVal]
    have := readString_spec hl k (varint v.length ++ (v ++ (encPairs rest ++ r))) hk.2
    simp only [List.append_assoc] at this
    rw [this]
    simp only
    have := readString_spec hl v (encPairs rest ++ r) hv.2
    simp only [List.append_assoc] at this
    rw [this]
    exact readStrs_spec hl rest d h.2.2.2 (m.store k v) (fun x => if x = k then some v else f x)
      (fun x => by rw [AMap.load_store]; split <;> simp [hm]) r

theorem pairs_zero {es : TPairs} (h : es.length = 0) : es = .nil := by
  cases es <;> simp_all [TPairs.length]

theorem readUserField_spec {limit : Nat} (hl : limit < 2 ^ 31) {kt vt : TType} (es : TPairs) (d : Nat)
    (h : okVal limit d (.map kt vt es)) (hd : d ≤ maxDepth) (hs : es.length = 0 ∨ (kt = .string ∧ vt = .struct)) (r : Bytes) :
    match usersOf es (fun _ => none) with
    | some f' => ∃ m', readUserField limit (encVal (.map kt vt es) ++ r) = some (m', r) ∧ ∀ k, m'.load k = (f' k).map some
    | none => readUserField limit (encVal (.map kt vt es) ++ r) = none := by
  simp only [okVal] at h
  simp only [readUserField, encVal, List.append_assoc, readMapBegin_spec hl kt vt h.2.1]
  rcases hs with hs | ⟨rfl, rfl⟩
  · have := pairs_zero hs
    subst this
    exact ⟨AMap.empty, rfl, fun k => rfl⟩
  · have := readUsers_spec hl es (d - 1) h.2.2 (by omega) AMap.empty (fun _ => none) (fun k => rfl) r
    by_cases h0 : es.length = 0
    · rw [if_pos h0]
      rw [h0] at this; exact this
    · rw [if_neg h0]; exact this

theorem readStrField_spec {limit : Nat} (hl : limit < 2 ^ 31) {kt vt : TType} (es : TPairs) (d : Nat)
    (h : okVal limit d (.map kt vt es)) (hs : es.length = 0 ∨ (kt = .string ∧ vt = .string)) (r : Bytes) :
    match strsOf es (fun _ => none) with
    | some f' => ∃ m', readStrField limit (encVal (.map kt vt es) ++ r) = some (m', r) ∧ ∀ k, m'.load k = f' k
    | none => readStrField limit (encVal (.map kt vt es) ++ r) = none := by
  simp only [okVal] at h
  simp only [readStrField, encVal, List.append_assoc, readMapBegin_spec hl kt vt h.2.1]
  rcases hs with hs | ⟨rfl, rfl⟩
  · have := pairs_zero hs
    subst this
    exact ⟨AMap.empty, rfl, fun k => rfl⟩
  · have := readStrs_spec hl es (d - 1) h.2.2 AMap.empty (fun _ => none) (fun k => rfl) r
    by_cases h0 : es.length = 0
    · rw [if_pos h0]
      rw [h0] at this; exact this
    · rw [if_neg h0]; exact this

theorem readKBLoop_spec {limit : Nat} (hl : limit < 2 ^ 31) (fs : TFields) (d : Nat) (h : okFields limit d fs) (hd : d ≤ maxDepth)
    (hsh : Shaped fs) (last : Int) (hlast : -32768 ≤ last ∧ last < 32768) (fuel : Nat) (hf : fieldsLen fs < fuel)
    (kb : KB) (b : Bean) (hab : Agree kb b) (r : Bytes) :
    match beanOf fs b with
    | some b' => ∃ kb', readKBLoop limit fuel last kb (encFields last fs ++ r) = some (kb', r) ∧ Agree kb' b'
    | none => readKBLoop limit fuel last kb (encFields last fs ++ r) = none := by
  obtain ⟨fuel, rfl⟩ : ∃ k, fuel = k + 1 := ⟨fuel - 1, by omega⟩
  match fs with
  | .nil => exact ⟨kb, by simp [encFields, readKBLoop, readFieldBegin_stop], hab⟩
  | .cons id v rest =>
    simp only [okFields] at h
    simp only [fieldsLen] at hf
    simp only [Shaped] at hsh
    simp only [encFields, readKBLoop, List.append_assoc]
    rw [readFieldBegin_spec hlast h.1 (fieldCode_bounds v) (getTType_fieldCode v)]
    simp only
    have hrest := fun kb b hab => readKBLoop_spec hl rest d h.2.2 hd hsh.2 id h.1 fuel (by omega) kb b hab r
    by_cases hm : v.type = .map
    · obtain ⟨kt, vt, es, rfl⟩ := type_map hm
      have hsk := skip_field hl (.map kt vt es) d h.2.1 hd (encFields id rest ++ r)
      have hs1 := hsh.1
      simp only [TVal.type, and_true, reduceCtorEq, if_false, beanOf] at hsk hs1 ⊢
      obtain ⟨ha, hc, hq, ho⟩ := hab
      by_cases h1 : id = 1
      · rw [if_pos h1, if_pos h1]
        have := readUserField_spec hl es d h.2.1 hd (by rcases hs1 with q | q <;> tauto) (encFields id rest ++ r)
        cases hu : usersOf es fun _ => none with
        | none => simp only [hu] at this; rw [this]
        | some f =>
          simp only [hu] at this
          obtain ⟨m', e, hm'⟩ := this
          rw [e]
          exact hrest _ _ ⟨hm', hc, hq, ho⟩
      rw [if_neg h1, if_neg h1]
      by_cases h2 : id = 2
      · rw [if_pos h2, if_pos h2]
        have := readUserField_spec hl es d h.2.1 hd (by rcases hs1 with q | q <;> tauto) (encFields id rest ++ r)
        cases hu : usersOf es fun _ => none with
        | none => simp only [hu] at this; rw [this]
        | some f =>
          simp only [hu] at this
          obtain ⟨m', e, hm'⟩ := this
          rw [e]
          exact hrest _ _ ⟨ha, hm', hq, ho⟩
      rw [if_neg h2, if_neg h2]
      by_cases h3 : id = 3
      · rw [if_pos h3, if_pos h3]
        have := readUserField_spec hl es d h.2.1 hd (by rcases hs1 with q | q <;> tauto) (encFields id rest ++ r)
        cases hu : usersOf es fun _ => none with
        | none => simp only [hu] at this; rw [this]
        | some f =>
          simp only [hu] at this
          obtain ⟨m', e, hm'⟩ := this
          rw [e]
          exact hrest _ _ ⟨ha, hc, hm', ho⟩
      rw [if_neg h3, if_neg h3]
      by_cases h4 : id = 4
      · rw [if_pos h4, if_pos h4]
        have := readStrField_spec hl es d h.2.1 (by rcases hs1 with q | q <;> tauto) (encFields id rest ++ r)
        cases hu : strsOf es fun _ => none with
        | none => simp only [hu] at this; rw [this]
        | some f =>
          simp only [hu] at this
          obtain ⟨m', e, hm'⟩ := this
          rw [e]
          exact hrest _ _ ⟨ha, hc, hq, hm'⟩
      rw [if_neg h4, if_neg h4]
      simp only [decide_false] at hsk
      simp only [decide_false, hsk]
      exact hrest kb b ⟨ha, hc, hq, ho⟩
    · rw [if_neg (by tauto), if_neg (by tauto), if_neg (by tauto), if_neg (by tauto), skip_field hl v d h.2.1 hd]
      have : beanOf (.cons id v rest) b = beanOf rest b := by
        cases v <;> first | rfl | (simp [TVal.type] at hm)
      rw [this]
      exact hrest kb b hab

theorem agree_empty : Agree ⟨none, none, none, none⟩ Bean.empty := ⟨trivial, trivial, trivial, trivial⟩

/-- Decoding an encoded struct, whatever follows it. -/
theorem tDecode_spec {limit : Nat} (hl : limit < 2 ^ 31) (fs : TFields) (h : okFields limit maxDepth fs) (hsh : Shaped fs) (r : Bytes) :
    match beanOf fs Bean.empty with
    | some b => ∃ kb, tDecode limit (encFields 0 fs ++ r) = some kb ∧ Agree kb b
    | none => tDecode limit (encFields 0 fs ++ r) = none := by
  have := readKBLoop_spec hl fs maxDepth h (Nat.le_refl _) hsh 0 (by omega) ((encFields 0 fs ++ r).length + 1) (by
    have := fieldsLen_le 0 fs; simp only [List.length_append]; omega) ⟨none, none, none, none⟩ Bean.empty agree_empty r
  cases hb : beanOf fs Bean.empty with
  | none =>
    simp only [hb] at this
    unfold tDecode; rw [this]; rfl
  | some b =>
    simp only [hb] at this
    obtain ⟨kb, e, ha⟩ := this
    exact ⟨kb, by unfold tDecode; rw [e]; rfl, ha⟩

/-! ### The writer produces an encoded struct -/

def userVal : Option User → TVal
  | none => .struct .nil
  | some u => .struct (.cons 1 (.str u.name) (.cons 2 (.str u.pwd) (.cons 3 (.byte u.type) .nil)))

def userPairs : List (Bytes × Option User) → TPairs
  | [] => .nil
  | (k, v) :: r => .cons (.str k) (userVal v) (userPairs r)

def strPairs : List (Bytes × Bytes) → TPairs
  | [] => .nil
  | (k, v) :: r => .cons (.str k) (.str v) (strPairs r)

def consIf {α : Type} (m : Option α) (id : Int) (v : TVal) (rest : TFields) : TFields :=
  match m with
  | none => rest
  | some _ => .cons id v rest

def fieldsOf (kb : KB) (o : Orders) : TFields :=
  consIf kb.admin 1 (.map .string .struct (userPairs o.admin)) (consIf kb.client 2 (.map .string .struct (userPairs o.client))
    (consIf kb.mq 3 (.map .string .struct (userPairs o.mq)) (consIf kb.other 4 (.map .string .string (strPairs o.other)) .nil)))

theorem length_userPairs (l : List (Bytes × Option User)) : (userPairs l).length = l.length := by
  induction l with
  | nil => rfl
  | cons x l ih => simp [userPairs, TPairs.length, ih]

theorem length_strPairs (l : List (Bytes × Bytes)) : (strPairs l).length = l.length := by
  induction l with
  | nil => rfl
  | cons x l ih => simp [strPairs, TPairs.length, ih]

theorem writeString_eq {s : Bytes} (h : s.length < 2 ^ 32) : writeString s = encVal (.str s) := by
  simp only [writeString, encVal, writeVarint32_eq h]

theorem writeUser_eq (v : Option User) (h : ∀ u, v = some u → u.name.length < 2 ^ 32 ∧ u.pwd.length < 2 ^ 32) :
    writeUser v = encVal (userVal v) := by
  cases v with
  | none => rfl
  | some u =>
    have := h u rfl
    simp only [writeUser, userVal, writeString_eq this.1, writeString_eq this.2]
    simp [encVal, encFields, fieldHeader, fieldCode, TVal.type, TType.code, writeFieldBegin, writeByte, writeFieldStop]

theorem writeUsers_eq (l : List (Bytes × Option User))
    (h : ∀ p ∈ l, p.1.length < 2 ^ 32 ∧ ∀ u, p.2 = some u → u.name.length < 2 ^ 32 ∧ u.pwd.length < 2 ^ 32) :
    writeUsers l = encPairs (userPairs l) := by
  induction l with
  | nil => rfl
  | cons x l ih =>
    obtain ⟨k, v⟩ := x
    have hx := h (k, v) (by simp)
    simp only [writeUsers, userPairs, encPairs]
    rw [ih fun p hp => h p (List.mem_cons_of_mem _ hp), writeUser_eq v hx.2, writeString_eq hx.1]

theorem writeStrs_eq (l : List (Bytes × Bytes)) (h : ∀ p ∈ l, p.1.length < 2 ^ 32 ∧ p.2.length < 2 ^ 32) :
    writeStrs l = encPairs (strPairs l) := by
  induction l with
  | nil => rfl
  | cons x l ih =>
    obtain ⟨k, v⟩ := x
    have hx := h (k, v) (by simp)
    simp only [writeStrs, strPairs, encPairs]
    rw [ih fun p hp => h p (List.mem_cons_of_mem _ hp), writeString_eq hx.2, writeString_eq hx.1]

theorem writeMapBegin_eq (kt vt : TType) {n : Nat} (h : n < 2 ^ 32) : writeMapBegin kt vt n = mapHeader kt vt n := by
  simp only [writeMapBegin, mapHeader, writeVarint32_eq h]

theorem writeFieldBegin_map {last id : Nat} (h : last < id) (h' : id ≤ 4) :
    writeFieldBegin last .map id = fieldHeader last id 11 := by
  unfold writeFieldBegin fieldHeader
  rw [if_pos (by omega), if_pos (by omega)]
  have : ((id : Int) - last).toNat = id - last := by omega
  rw [this]; rfl

theorem okPairs_users {limit d : Nat} (hd : 2 < d) (l : List (Bytes × Option User))
    (h : ∀ p ∈ l, p.1.length ≤ limit ∧ ∀ u, p.2 = some u → u.name.length ≤ limit ∧ u.pwd.length ≤ limit) :
    okPairs limit d .string .struct (userPairs l) := by
  induction l with
  | nil => simp [userPairs, okPairs]
  | cons x l ih =>
    obtain ⟨k, v⟩ := x
    have hx := h (k, v) (by simp)
    simp only [userPairs, okPairs]
    refine ⟨⟨rfl, by cases v <;> rfl⟩, ?_, ?_, ih fun p hp => h p (List.mem_cons_of_mem _ hp)⟩
    · simp only [okVal]; exact ⟨by omega, hx.1⟩
    · cases v with
      | none => simp only [userVal, okVal, okFields]; exact ⟨by omega, trivial⟩
      | some u =>
        have := hx.2 u rfl
        simp only [userVal, okVal, okFields]
        refine ⟨by omega, by omega, ⟨by omega, this.1⟩, by omega, ⟨by omega, this.2⟩, by omega, by omega, trivial⟩

theorem okPairs_strs {limit d : Nat} (hd : 1 < d) (l : List (Bytes × Bytes))
    (h : ∀ p ∈ l, p.1.length ≤ limit ∧ p.2.length ≤ limit) : okPairs limit d .string .string (strPairs l) := by
  induction l with
  | nil => simp [strPairs, okPairs]
  | cons x l ih =>
    obtain ⟨k, v⟩ := x
    have hx := h (k, v) (by simp)
    simp only [strPairs, okPairs]
    refine ⟨⟨rfl, rfl⟩, ?_, ?_, ih fun p hp => h p (List.mem_cons_of_mem _ hp)⟩
    · simp only [okVal]; exact ⟨by omega, hx.1⟩
    · simp only [okVal]; exact ⟨by omega, hx.2⟩

theorem FitsU.perm {limit : Nat} {l l' : List (Bytes × Option User)} (h : FitsU limit l) (p : l'.Perm l) : FitsU limit l' :=
  ⟨by rw [p.length_eq]; exact h.1, fun q hq => h.2 q (p.mem_iff.1 hq)⟩

theorem FitsS.perm {limit : Nat} {l l' : List (Bytes × Bytes)} (h : FitsS limit l) (p : l'.Perm l) : FitsS limit l' :=
  ⟨by rw [p.length_eq]; exact h.1, fun q hq => h.2 q (p.mem_iff.1 hq)⟩

theorem writeUserField_eq {limit : Nat} (hl : limit < 2 ^ 31) {last id : Nat} (h : last < id) (h' : id ≤ 4) (m : UserMap)
    (o : List (Bytes × Option User)) (hf : FitsU limit m.entries) (ho : o.Perm m.entries) :
    writeUserField last id (some m) o = (fieldHeader last id 11 ++ encVal (.map .string .struct (userPairs o)), id) := by
  have hs : m.size = o.length := ho.length_eq.symm
  have hfo := hf.perm ho
  have hlim : limit < 2 ^ 32 := by omega
  simp only [writeUserField, encVal, writeFieldBegin_map h h', hs, length_userPairs]
  rw [writeMapBegin_eq _ _ (by have := hfo.1; omega), writeUsers_eq]
  intro p hp
  have := hfo.2 p hp
  refine ⟨by omega, fun u hu => ?_⟩
  have := this.2 u hu
  omega

theorem writeStrField_eq {limit : Nat} (hl : limit < 2 ^ 31) {last id : Nat} (h : last < id) (h' : id ≤ 4) (m : StrMap)
    (o : List (Bytes × Bytes)) (hf : FitsS limit m.entries) (ho : o.Perm m.entries) :
    writeStrField last id (some m) o = (fieldHeader last id 11 ++ encVal (.map .string .string (strPairs o)), id) := by
  have hs : m.size = o.length := ho.length_eq.symm
  have hfo := hf.perm ho
  have hlim : limit < 2 ^ 32 := by omega
  simp only [writeStrField, encVal, writeFieldBegin_map h h', hs, length_strPairs]
  rw [writeMapBegin_eq _ _ (by have := hfo.1; omega), writeStrs_eq]
  intro p hp
  have := hfo.2 p hp
  omega

theorem userField_step {limit : Nat} (hl : limit < 2 ^ 31) {last id : Nat} (h : last < id) (h' : id ≤ 4) (m : Option UserMap)
    (o : List (Bytes × Option User)) (hf : ∀ x, m = some x → FitsU limit x.entries) (ho : ∀ x, m = some x → o.Perm x.entries)
    (rest : TFields) :
    (writeUserField last id m o).1 ++ encFields ((writeUserField last id m o).2 : Nat) rest =
      encFields last (consIf m id (.map .string .struct (userPairs o)) rest) ∧ (writeUserField last id m o).2 ≤ id := by
  cases m with
  | none => exact ⟨rfl, by simp only [writeUserField]; omega⟩
  | some m =>
    rw [writeUserField_eq hl h h' m o (hf m rfl) (ho m rfl)]
    exact ⟨rfl, Nat.le_refl _⟩

theorem strField_step {limit : Nat} (hl : limit < 2 ^ 31) {last id : Nat} (h : last < id) (h' : id ≤ 4) (m : Option StrMap)
    (o : List (Bytes × Bytes)) (hf : ∀ x, m = some x → FitsS limit x.entries) (ho : ∀ x, m = some x → o.Perm x.entries)
    (rest : TFields) :
    (writeStrField last id m o).1 ++ encFields ((writeStrField last id m o).2 : Nat) rest =
      encFields last (consIf m id (.map .string .string (strPairs o)) rest) := by
  cases m with
  | none => rfl
  | some m =>
    rw [writeStrField_eq hl h h' m o (hf m rfl) (ho m rfl)]
    rfl

theorem tEncode_eq {limit : Nat} (hl : limit < 2 ^ 31) (kb : KB) (o : Orders) (ho : OrdersOf kb o) (hf : Fits limit kb) :
    tEncode kb o = encFields 0 (fieldsOf kb o) := by
  have s1 := userField_step hl (last := 0) (id := 1) (by omega) (by omega) kb.admin o.admin hf.admin ho.admin
  have s2 := userField_step hl (last := (writeUserField 0 1 kb.admin o.admin).2) (id := 2) (by have := (s1 .nil).2; omega) (by omega)
    kb.client o.client hf.client ho.client
  have s3 := userField_step hl (last := (writeUserField (writeUserField 0 1 kb.admin o.admin).2 2 kb.client o.client).2) (id := 3)
    (by have := (s2 .nil).2; omega) (by omega) kb.mq o.mq hf.mq ho.mq
  have s4 := strField_step hl (last := (writeUserField (writeUserField (writeUserField 0 1 kb.admin o.admin).2 2 kb.client o.client).2 3
    kb.mq o.mq).2) (id := 4) (by have := (s3 .nil).2; omega) (by omega) kb.other o.other hf.other ho.other
  simp only [tEncode, fieldsOf]
  have h0 : ((0 : Nat) : Int) = 0 := rfl
  rw [← h0, ← Nat.cast_one]
  refine Eq.trans ?_ (s1 _).1
  congr 1
  refine Eq.trans ?_ (s2 _).1
  congr 1
  refine Eq.trans ?_ (s3 _).1
  congr 1
  exact s4 .nil

theorem okFields_consIf {α : Type} {limit d : Nat} (m : Option α) {id : Int} (hid : -32768 ≤ id ∧ id < 32768) {v : TVal} {rest : TFields}
    (hv : ∀ x, m = some x → okVal limit d v) (hr : okFields limit d rest) : okFields limit d (consIf m id v rest) := by
  cases m with
  | none => exact hr
  | some x => simp only [consIf, okFields]; exact ⟨hid, hv x rfl, hr⟩

theorem okFields_fieldsOf {limit : Nat} (kb : KB) (o : Orders) (ho : OrdersOf kb o) (hf : Fits limit kb) :
    okFields limit maxDepth (fieldsOf kb o) := by
  have hu : ∀ l, FitsU limit l → okVal limit maxDepth (.map .string .struct (userPairs l)) := fun l h => by
    simp only [okVal, length_userPairs]
    exact ⟨by decide, h.1, okPairs_users (by decide) l h.2⟩
  have hs : ∀ l, FitsS limit l → okVal limit maxDepth (.map .string .string (strPairs l)) := fun l h => by
    simp only [okVal, length_strPairs]
    exact ⟨by decide, h.1, okPairs_strs (by decide) l h.2⟩
  unfold fieldsOf
  exact okFields_consIf _ (by omega) (fun m e => hu _ ((hf.admin m e).perm (ho.admin m e))) <|
    okFields_consIf _ (by omega) (fun m e => hu _ ((hf.client m e).perm (ho.client m e))) <|
    okFields_consIf _ (by omega) (fun m e => hu _ ((hf.mq m e).perm (ho.mq m e))) <|
    okFields_consIf _ (by omega) (fun m e => hs _ ((hf.other m e).perm (ho.other m e))) (by simp [okFields])

theorem shaped_consIf {α : Type} (m : Option α) {id : Int} {kt vt : TType} {es : TPairs} {rest : TFields}
    (h : (id = 1 ∨ id = 2 ∨ id = 3 → kt = .string ∧ vt = .struct) ∧ (id = 4 → kt = .string ∧ vt = .string))
    (hr : Shaped rest) : Shaped (consIf m id (.map kt vt es) rest) := by
  cases m with
  | none => exact hr
  | some x => exact ⟨Or.inr h, hr⟩

theorem shaped_fieldsOf (kb : KB) (o : Orders) : Shaped (fieldsOf kb o) :=
  shaped_consIf _ (by simp) <| shaped_consIf _ (by simp) <| shaped_consIf _ (by simp) <| shaped_consIf _ (by simp) trivial

theorem userOf_userVal (u : User) :
    userOf (.cons 1 (.str u.name) (.cons 2 (.str u.pwd) (.cons 3 (.byte u.type) .nil))) = some u := by
  simp [userOf, lastStr, lastByte]

theorem usersOf_order (l : List (Bytes × Option User)) (hn : (l.map Prod.fst).Nodup) (f : Bytes → Option User) :
    if ∃ k, (k, none) ∈ l then usersOf (userPairs l) f = none else
    ∃ f', usersOf (userPairs l) f = some f' ∧ (∀ k u, (k, some u) ∈ l → f' k = some u) ∧
      ∀ k, k ∉ l.map Prod.fst → f' k = f k := by
  induction l generalizing f with
  | nil => simp [userPairs, usersOf]
  | cons x l ih =>
    obtain ⟨k, v⟩ := x
    simp only [List.map_cons, List.nodup_cons] at hn
    cases v with
    | none =>
      rw [if_pos ⟨k, by simp⟩]
      simp [userPairs, usersOf, userVal, userOf, lastStr]
    | some u =>
      simp only [userPairs, userVal, usersOf, userOf_userVal]
      have := ih hn.2 fun x => if x = k then some u else f x
      have hiff : (∃ k', (k', (none : Option User)) ∈ (k, some u) :: l) ↔ ∃ k', (k', none) ∈ l := by simp
      simp only [hiff]
      split at this
      · rename_i h; rw [if_pos h]; exact this
      · rename_i h
        rw [if_neg h]
        obtain ⟨f', e, h1, h2⟩ := this
        refine ⟨f', e, fun k' u' hm => ?_, fun k' hk' => ?_⟩
        · rcases List.mem_cons.1 hm with hm | hm
          · simp only [Prod.mk.injEq, Option.some.injEq] at hm
            rw [hm.1, h2 k hn.1, if_pos rfl, hm.2]
          · exact h1 k' u' hm
        · simp only [List.map_cons, List.mem_cons, not_or] at hk'
          rw [h2 k' hk'.2, if_neg hk'.1]

theorem strsOf_order (l : List (Bytes × Bytes)) (hn : (l.map Prod.fst).Nodup) (f : Bytes → Option Bytes) :
    ∃ f', strsOf (strPairs l) f = some f' ∧ (∀ k u, (k, u) ∈ l → f' k = some u) ∧ ∀ k, k ∉ l.map Prod.fst → f' k = f k := by
  induction l generalizing f with
  | nil => simp [strPairs, strsOf]
  | cons x l ih =>
    obtain ⟨k, u⟩ := x
    simp only [List.map_cons, List.nodup_cons] at hn
    obtain ⟨f', e, h1, h2⟩ := ih hn.2 fun x => if x = k then some u else f x
    refine ⟨f', e, fun k' u' hm => ?_, fun k' hk' => ?_⟩
    · rcases List.mem_cons.1 hm with hm | hm
      · simp only [Prod.mk.injEq] at hm
        rw [hm.1, h2 k hn.1, if_pos rfl, hm.2]
      · exact h1 k' u' hm
    · simp only [List.map_cons, List.mem_cons, not_or] at hk'
      rw [h2 k' hk'.2, if_neg hk'.1]

theorem usersOf_map (m : UserMap) (o : List (Bytes × Option User)) (ho : o.Perm m.entries) :
    if ∃ k, m.load k = some none then usersOf (userPairs o) (fun _ => none) = none else
    ∃ f', usersOf (userPairs o) (fun _ => none) = some f' ∧ ∀ k, m.load k = (f' k).map some := by
  have hn : (o.map Prod.fst).Nodup := (ho.map Prod.fst).nodup_iff.2 m.nodup
  have := usersOf_order o hn fun _ => none
  have hiff : (∃ k, (k, (none : Option User)) ∈ o) ↔ ∃ k, m.load k = some none := by
    simp only [ho.mem_iff, AMap.mem_entries_iff]
  simp only [hiff] at this
  split at this
  · rename_i h; rw [if_pos h]; exact this
  · rename_i h
    rw [if_neg h]
    obtain ⟨f', e, h1, h2⟩ := this
    refine ⟨f', e, fun k => ?_⟩
    cases hk : m.load k with
    | none =>
      rw [h2 k]
      · rfl
      · intro hm
        rw [(ho.map Prod.fst).mem_iff, ← AMap.load_isSome_iff, hk] at hm
        simp at hm
    | some v =>
      cases v with
      | none => exact absurd ⟨k, hk⟩ h
      | some u =>
        rw [h1 k u]
        · rfl
        · rw [ho.mem_iff, AMap.mem_entries_iff, hk]

theorem strsOf_map (m : StrMap) (o : List (Bytes × Bytes)) (ho : o.Perm m.entries) :
    ∃ f', strsOf (strPairs o) (fun _ => none) = some f' ∧ ∀ k, m.load k = f' k := by
  have hn : (o.map Prod.fst).Nodup := (ho.map Prod.fst).nodup_iff.2 m.nodup
  obtain ⟨f', e, h1, h2⟩ := strsOf_order o hn fun _ => none
  refine ⟨f', e, fun k => ?_⟩
  cases hk : m.load k with
  | none =>
    rw [h2 k]
    intro hm
    rw [(ho.map Prod.fst).mem_iff, ← AMap.load_isSome_iff, hk] at hm
    simp at hm
  | some u =>
    rw [h1 k u]
    rw [ho.mem_iff, AMap.mem_entries_iff, hk]

theorem beanOf_user {id : Int} (m : Option UserMap) (o : List (Bytes × Option User)) (ho : ∀ x, m = some x → o.Perm x.entries)
    (rest : TFields) (b : Bean) (set : Bean → Option (Bytes → Option User) → Bean)
    (hset : ∀ es, beanOf (.cons id (.map .string .struct es) rest) b =
      match usersOf es fun _ => none with
      | some f => beanOf rest (set b (some f))
      | none => none)
    (hnone : set b none = b) :
    if ∃ x k, m = some x ∧ x.load k = some none then
      beanOf (consIf m id (.map .string .struct (userPairs o)) rest) b = none
    else ∃ f, AgreeU m f ∧ beanOf (consIf m id (.map .string .struct (userPairs o)) rest) b = beanOf rest (set b f) := by
  cases m with
  | none => simp only [reduceCtorEq, false_and, exists_false, if_false, consIf]; exact ⟨none, trivial, by rw [hnone]⟩
  | some m =>
    have := usersOf_map m o (ho m rfl)
    have hiff : (∃ x k, some m = some x ∧ x.load k = some none) ↔ ∃ k, m.load k = some none := by
      constructor
      · rintro ⟨x, k, e, h⟩; cases e; exact ⟨k, h⟩
      · rintro ⟨k, h⟩; exact ⟨m, k, rfl, h⟩
    simp only [hiff, consIf, hset]
    split at this
    · rename_i h; rw [if_pos h, this]
    · rename_i h
      rw [if_neg h]
      obtain ⟨f, e, hf⟩ := this
      exact ⟨some f, hf, by rw [e]⟩

theorem beanOf_fieldsOf (kb : KB) (o : Orders) (ho : OrdersOf kb o) :
    (HasNil kb → beanOf (fieldsOf kb o) Bean.empty = none) ∧
      (¬ HasNil kb → ∃ b, beanOf (fieldsOf kb o) Bean.empty = some b ∧ Agree kb b) := by
  have s1 := fun rest b => beanOf_user (id := 1) kb.admin o.admin ho.admin rest b (fun b f => { b with admin := f })
  have s2 := fun rest b => beanOf_user (id := 2) kb.client o.client ho.client rest b (fun b f => { b with client := f })
  have s3 := fun rest b => beanOf_user (id := 3) kb.mq o.mq ho.mq rest b (fun b f => { b with mq := f })
  have s4 : ∀ b : Bean, b.other = none → ∃ b', beanOf (consIf kb.other 4 (.map .string .string (strPairs o.other)) .nil) b = some b' ∧
      b'.admin = b.admin ∧ b'.client = b.client ∧ b'.mq = b.mq ∧ AgreeS kb.other b'.other := by
    intro b hb
    cases hm : kb.other with
    | none => exact ⟨b, rfl, rfl, rfl, rfl, by rw [hb]; trivial⟩
    | some m =>
      obtain ⟨f, e, hf⟩ := strsOf_map m o.other (ho.other m hm)
      refine ⟨{ b with other := some f }, ?_, rfl, rfl, rfl, hf⟩
      simp [consIf, beanOf, e]
  have t1 := s1 (consIf kb.client 2 (.map .string .struct (userPairs o.client))
    (consIf kb.mq 3 (.map .string .struct (userPairs o.mq)) (consIf kb.other 4 (.map .string .string (strPairs o.other)) .nil))) Bean.empty
    (fun es => by cases h : usersOf es fun _ => none <;> simp [beanOf, h]) rfl
  unfold fieldsOf HasNil
  split at t1
  · rename_i h1; exact ⟨fun _ => t1, fun h => absurd (Or.inl h1) h⟩
  rename_i h1
  obtain ⟨f1, a1, e1⟩ := t1
  rw [e1]
  have t2 := s2 (consIf kb.mq 3 (.map .string .struct (userPairs o.mq)) (consIf kb.other 4 (.map .string .string (strPairs o.other)) .nil))
    { Bean.empty with admin := f1 } (fun es => by cases h : usersOf es fun _ => none <;> simp [beanOf, h]) rfl
  split at t2
  · rename_i h2; exact ⟨fun _ => t2, fun h => absurd (Or.inr (Or.inl h2)) h⟩
  rename_i h2
  obtain ⟨f2, a2, e2⟩ := t2
  rw [e2]
  have t3 := s3 (consIf kb.other 4 (.map .string .string (strPairs o.other)) .nil)
    { Bean.empty with admin := f1, client := f2 } (fun es => by cases h : usersOf es fun _ => none <;> simp [beanOf, h]) rfl
  split at t3
  · rename_i h3; exact ⟨fun _ => t3, fun h => absurd (Or.inr (Or.inr h3)) h⟩
  rename_i h3
  obtain ⟨f3, a3, e3⟩ := t3
  obtain ⟨b', e4, q1, q2, q3, q4⟩ := s4 { Bean.empty with admin := f1, client := f2, mq := f3 } rfl
  refine ⟨fun h => by rcases h with h | h | h <;> [exact absurd h h1; exact absurd h h2; exact absurd h h3], fun _ => ⟨b', ?_, ?_⟩⟩
  · exact e3.trans e4
  · refine ⟨?_, ?_, ?_, q4⟩
    · rw [q1]; exact a1
    · rw [q2]; exact a2
    · rw [q3]; exact a3

theorem sameMap_of_agreeU {m m' : Option UserMap} {f : Option (Bytes → Option User)} (h : AgreeU m f) (h' : AgreeU m' f) : sameMap m m' := by
  cases m <;> cases m' <;> cases f <;> simp_all [AgreeU, sameMap]

theorem sameMap_of_agreeS {m m' : Option StrMap} {f : Option (Bytes → Option Bytes)} (h : AgreeS m f) (h' : AgreeS m' f) : sameMap m m' := by
  cases m <;> cases m' <;> cases f <;> simp_all [AgreeS, sameMap]

theorem tDecode_tEncode {limit : Nat} (hl : limit < 2 ^ 31) (kb : KB) (o : Orders) (ho : OrdersOf kb o) (hf : Fits limit kb) (r : Bytes) :
    (HasNil kb → tDecode limit (tEncode kb o ++ r) = none) ∧
      (¬ HasNil kb → ∃ kb', tDecode limit (tEncode kb o ++ r) = some kb' ∧ Same kb kb') := by
  have hs := tDecode_spec hl (fieldsOf kb o) (okFields_fieldsOf kb o ho hf) (shaped_fieldsOf kb o) r
  have hb := beanOf_fieldsOf kb o ho
  rw [tEncode_eq hl kb o ho hf]
  refine ⟨fun h => ?_, fun h => ?_⟩
  · rw [hb.1 h] at hs; exact hs
  · obtain ⟨b, e, ha⟩ := hb.2 h
    rw [e] at hs
    obtain ⟨kb', e', ha'⟩ := hs
    exact ⟨kb', e', sameMap_of_agreeU ha.1 ha'.1, sameMap_of_agreeU ha.2.1 ha'.2.1, sameMap_of_agreeU ha.2.2.1 ha'.2.2.1,
      sameMap_of_agreeS ha.2.2.2 ha'.2.2.2⟩

/-! ### A truncated encoding is not decodable -/

theorem readUserLoop_ext {limit : Nat} (fuel fuel' : Nat) (hf : fuel ≤ fuel') (last : Int) (acc : UserAcc) (bs : Bytes) (a) (r s : Bytes)
    (h : readUserLoop limit fuel last acc bs = some (a, r)) : readUserLoop limit fuel' last acc (bs ++ s) = some (a, r ++ s) := by
  induction fuel generalizing fuel' last acc bs with
  | zero => simp [readUserLoop] at h
  | succ fuel ih =>
    obtain ⟨fuel', rfl⟩ : ∃ k, fuel' = k + 1 := ⟨fuel' - 1, by omega⟩
    have hf' : fuel ≤ fuel' := by omega
    simp only [readUserLoop] at h ⊢
    cases hb : readFieldBegin last bs with
    | none => simp [hb] at h
    | some p =>
      obtain ⟨x, r'⟩ := p
      rw [hb] at h
      rw [readFieldBegin_ext s hb]
      cases x with
      | none =>
        simp only [Option.some.injEq, Prod.mk.injEq] at h ⊢
        exact ⟨h.1, by rw [h.2]⟩
      | some x =>
        obtain ⟨t, id⟩ := x
        simp only at h ⊢
        split at h
        · rename_i hc
          rw [if_pos hc]
          cases hk : readString limit r' with
          | none => simp [hk] at h
          | some q => rw [hk] at h; rw [readString_ext s hk]; exact ih fuel' hf' _ _ _ h
        rename_i hc
        rw [if_neg hc]
        split at h
        · rename_i hc
          rw [if_pos hc]
          cases hk : readString limit r' with
          | none => simp [hk] at h
          | some q => rw [hk] at h; rw [readString_ext s hk]; exact ih fuel' hf' _ _ _ h
        rename_i hc
        rw [if_neg hc]
        split at h
        · rename_i hc
          rw [if_pos hc]
          cases hk : readByte r' with
          | none => simp [hk] at h
          | some q => rw [hk] at h; rw [readByte_ext s hk]; exact ih fuel' hf' _ _ _ h
        rename_i hc
        rw [if_neg hc]
        cases hk : skip limit maxDepth (some t) (decide (t = .bool)) r' with
        | none => simp [hk] at h
        | some q => rw [hk] at h; rw [skip_ext limit _ _ _ _ _ s hk]; exact ih fuel' hf' _ _ _ h

theorem readUser_ext {limit : Nat} {bs : Bytes} {a} {r : Bytes} (s : Bytes) (h : readUser limit bs = some (a, r)) :
    readUser limit (bs ++ s) = some (a, r ++ s) := by
  unfold readUser at h ⊢
  cases hl : readUserLoop limit (bs.length + 1) 0 ⟨none, none, none⟩ bs with
  | none => simp [hl] at h
  | some p =>
    obtain ⟨⟨n, p, t⟩, r'⟩ := p
    rw [hl] at h
    rw [readUserLoop_ext _ _ (by simp only [List.length_append]; omega) 0 _ bs _ r' s hl]
    cases n <;> cases p <;> cases t <;> simp at h ⊢
    exact ⟨h.1, by rw [h.2]⟩

theorem readUsers_ext {limit : Nat} (n : Nat) (m : UserMap) (bs : Bytes) (a) (r s : Bytes) (h : readUsers limit n m bs = some (a, r)) :
    readUsers limit n m (bs ++ s) = some (a, r ++ s) := by
  induction n generalizing m bs with
  | zero => simp only [readUsers, Option.some.injEq, Prod.mk.injEq] at h ⊢; exact ⟨h.1, by rw [h.2]⟩
  | succ n ih =>
    simp only [readUsers] at h ⊢
    cases hk : readString limit bs with
    | none => simp [hk] at h
    | some q =>
      obtain ⟨k, r'⟩ := q
      rw [hk] at h; rw [readString_ext s hk]
      simp only at h ⊢
      cases hu : readUser limit r' with
      | none => simp [hu] at h
      | some q => rw [hu] at h; rw [readUser_ext s hu]; exact ih _ _ h

theorem readStrs_ext {limit : Nat} (n : Nat) (m : StrMap) (bs : Bytes) (a) (r s : Bytes) (h : readStrs limit n m bs = some (a, r)) :
    readStrs limit n m (bs ++ s) = some (a, r ++ s) := by
  induction n generalizing m bs with
  | zero => simp only [readStrs, Option.some.injEq, Prod.mk.injEq] at h ⊢; exact ⟨h.1, by rw [h.2]⟩
  | succ n ih =>
    simp only [readStrs] at h ⊢
    cases hk : readString limit bs with
    | none => simp [hk] at h
    | some q =>
      obtain ⟨k, r'⟩ := q
      rw [hk] at h; rw [readString_ext s hk]
      simp only at h ⊢
      cases hu : readString limit r' with
      | none => simp [hu] at h
      | some q => rw [hu] at h; rw [readString_ext s hu]; exact ih _ _ h

theorem readUserField_ext {limit : Nat} {bs : Bytes} {a} {r : Bytes} (s : Bytes) (h : readUserField limit bs = some (a, r)) :
    readUserField limit (bs ++ s) = some (a, r ++ s) := by
  unfold readUserField at h ⊢
  cases hb : readMapBegin limit bs with
  | none => simp [hb] at h
  | some q => rw [hb] at h; rw [readMapBegin_ext s hb]; exact readUsers_ext _ _ _ _ _ s h

theorem readStrField_ext {limit : Nat} {bs : Bytes} {a} {r : Bytes} (s : Bytes) (h : readStrField limit bs = some (a, r)) :
    readStrField limit (bs ++ s) = some (a, r ++ s) := by
  unfold readStrField at h ⊢
  cases hb : readMapBegin limit bs with
  | none => simp [hb] at h
  | some q => rw [hb] at h; rw [readMapBegin_ext s hb]; exact readStrs_ext _ _ _ _ _ s h

theorem readKBLoop_ext {limit : Nat} (fuel fuel' : Nat) (hf : fuel ≤ fuel') (last : Int) (kb : KB) (bs : Bytes) (a) (r s : Bytes)
    (h : readKBLoop limit fuel last kb bs = some (a, r)) : readKBLoop limit fuel' last kb (bs ++ s) = some (a, r ++ s) := by
  induction fuel generalizing fuel' last kb bs with
  | zero => simp [readKBLoop] at h
  | succ fuel ih =>
    obtain ⟨fuel', rfl⟩ : ∃ k, fuel' = k + 1 := ⟨fuel' - 1, by omega⟩
    have hf' : fuel ≤ fuel' := by omega
    simp only [readKBLoop] at h ⊢
    cases hb : readFieldBegin last bs with
    | none => simp [hb] at h
    | some p =>
      obtain ⟨x, r'⟩ := p
      rw [hb] at h
      rw [readFieldBegin_ext s hb]
      cases x with
      | none =>
        simp only [Option.some.injEq, Prod.mk.injEq] at h ⊢
        exact ⟨h.1, by rw [h.2]⟩
      | some x =>
        obtain ⟨t, id⟩ := x
        simp only at h ⊢
        split at h
        · rename_i hc
          rw [if_pos hc]
          cases hk : readUserField limit r' with
          | none => simp [hk] at h
          | some q => rw [hk] at h; rw [readUserField_ext s hk]; exact ih fuel' hf' _ _ _ h
        rename_i hc
        rw [if_neg hc]
        split at h
        · rename_i hc
          rw [if_pos hc]
          cases hk : readUserField limit r' with
          | none => simp [hk] at h
          | some q => rw [hk] at h; rw [readUserField_ext s hk]; exact ih fuel' hf' _ _ _ h
        rename_i hc
        rw [if_neg hc]
        split at h
        · rename_i hc
          rw [if_pos hc]
          cases hk : readUserField limit r' with
          | none => simp [hk] at h
          | some q => rw [hk] at h; rw [readUserField_ext s hk]; exact ih fuel' hf' _ _ _ h
        rename_i hc
        rw [if_neg hc]
        split at h
        · rename_i hc
          rw [if_pos hc]
          cases hk : readStrField limit r' with
          | none => simp [hk] at h
          | some q => rw [hk] at h; rw [readStrField_ext s hk]; exact ih fuel' hf' _ _ _ h
        rename_i hc
        rw [if_neg hc]
        cases hk : skip limit maxDepth (some t) (decide (t = .bool)) r' with
        | none => simp [hk] at h
        | some q => rw [hk] at h; rw [skip_ext limit _ _ _ _ _ s hk]; exact ih fuel' hf' _ _ _ h

/-- If `bs ++ s` is an encoded struct and `s` is not empty then `bs` does not decode. -/
theorem tDecode_prefix {limit : Nat} (hl : limit < 2 ^ 31) (fs : TFields) (h : okFields limit maxDepth fs) (hsh : Shaped fs)
    (bs s : Bytes) (hs : s ≠ []) (he : encFields 0 fs = bs ++ s) : tDecode limit bs = none := by
  have hspec := readKBLoop_spec hl fs maxDepth h (Nat.le_refl _) hsh 0 (by omega) ((encFields 0 fs ++ []).length + 1) (by
    have := fieldsLen_le 0 fs; simp only [List.length_append]; omega) ⟨none, none, none, none⟩ Bean.empty agree_empty []
  unfold tDecode
  cases hr : readKBLoop limit (bs.length + 1) 0 ⟨none, none, none, none⟩ bs with
  | none => rfl
  | some p =>
    obtain ⟨kb, r⟩ := p
    exfalso
    have hx := readKBLoop_ext _ ((encFields 0 fs ++ []).length + 1) (by rw [he]; simp only [List.length_append]; omega) 0 _ bs kb r s hr
    rw [← he] at hx
    rw [List.append_nil] at hspec hx
    split at hspec
    · obtain ⟨kb', e, _⟩ := hspec
      rw [hx] at e
      simp only [Option.some.injEq, Prod.mk.injEq, List.append_eq_nil_iff] at e
      exact hs e.2.2
    · rw [hx] at hspec; cases hspec

end Gofer.KeyBean
