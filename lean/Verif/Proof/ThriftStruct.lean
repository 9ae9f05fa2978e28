import Verif.Model.ThriftStruct
import Verif.Proof.Thrift

namespace Gofer.ThriftStruct
open Gofer.Spec.Thrift
open Gofer.Spec.ThriftStruct
open Gofer.Thrift hiding Bytes

/-! ### Types -/

theorem treeVal_type {W : Nat → Type} (sub : (n : Nat) → W n → TFields) (t : Ty) (v : Val W t) : (treeVal sub t v).type = t.ttype := by
  cases t <;> rfl

theorem valsOf_length (l : List TVal) : (valsOf l).length = l.length := by
  induction l with
  | nil => rfl
  | cons a l ih => simp only [valsOf, TVals.length, ih, List.length_cons]

theorem pairsOf_length (l : List (TVal × TVal)) : (pairsOf l).length = l.length := by
  induction l with
  | nil => rfl
  | cons a l ih => simp only [pairsOf, TPairs.length, ih, List.length_cons]

/-! ### Writing -/

/-- The bytes `E` come out if `u`; else an error and a proper prefix of them. -/
def Goes (a : Bytes × Bool) (E : Bytes) (u : Prop) : Prop :=
  (u → a = (E, true)) ∧ (¬ u → a.2 = false ∧ ∃ s, s ≠ [] ∧ E = a.1 ++ s)

theorem Goes.sure (E : Bytes) : Goes (E, true) E True := ⟨fun _ => rfl, fun h => absurd trivial h⟩

theorem Goes.congr {a : Bytes × Bool} {E : Bytes} {u w : Prop} (h : Goes a E u) (hu : u ↔ w) : Goes a E w :=
  ⟨fun hw => h.1 (hu.mpr hw), fun hw => h.2 (fun x => hw (hu.mp x))⟩

theorem Goes.andThen {a b : Bytes × Bool} {E F : Bytes} {u w : Prop} (ha : Goes a E u) (hb : Goes b F w) :
    Goes (andThen a b) (E ++ F) (u ∧ w) := by
  by_cases hu : u
  · have := ha.1 hu; subst this
    simp only [ThriftStruct.andThen, if_true]
    refine ⟨fun h => ?_, fun h => ?_⟩
    · rw [hb.1 h.2]
    · obtain ⟨h1, s, hs, he⟩ := hb.2 (fun x => h ⟨hu, x⟩)
      exact ⟨h1, s, hs, by rw [he, List.append_assoc]⟩
  · obtain ⟨h1, s, hs, he⟩ := ha.2 hu
    refine ⟨fun h => absurd h.1 hu, fun _ => ?_⟩
    simp only [ThriftStruct.andThen, h1, Bool.false_eq_true, if_false]
    exact ⟨trivial, s ++ F, by simp [hs], by rw [he, List.append_assoc]⟩

theorem Goes.writeAll {A : Type} {f : A → Bytes × Bool} {g : A → TVal} {u : A → Prop} (l : List A)
    (h : ∀ v ∈ l, Goes (f v) (encVal (g v)) (u v)) : Goes (writeAll f l) (encVals (valsOf (l.map g))) (∀ v ∈ l, u v) := by
  induction l with
  | nil => exact (Goes.sure []).congr (by simp)
  | cons a l ih =>
    have := (h a (by simp)).andThen (ih fun v hv => h v (by simp [hv]))
    simp only [List.map_cons, valsOf, encVals, ThriftStruct.writeAll]
    exact this.congr (by simp)

theorem Goes.writePairs {K A : Type} {f : K × A → Bytes × Bool} {g : K × A → TVal × TVal} {u : K × A → Prop} (l : List (K × A))
    (h : ∀ v ∈ l, Goes (f v) (encVal (g v).1 ++ encVal (g v).2) (u v)) :
    Goes (ThriftStruct.writeAll f l) (encPairs (pairsOf (l.map g))) (∀ v ∈ l, u v) := by
  induction l with
  | nil => exact (Goes.sure []).congr (by simp)
  | cons a l ih =>
    have := (h a (by simp)).andThen (ih fun v hv => h v (by simp [hv]))
    simp only [List.map_cons, pairsOf, encPairs, ThriftStruct.writeAll, ← List.append_assoc]
    exact this.congr (by simp)

theorem toZigzag_eq (z : Int) : toZigzag z = zigzag z := by
  unfold toZigzag zigzag; split <;> split <;> omega

theorem zigzag_lt {z : Int} {k : Nat} (h1 : -(k : Int) ≤ z) (h2 : z < k) : zigzag z < 2 * k := by
  unfold zigzag; split <;> omega

theorem writeI32_eq {z : Int} (h1 : -2147483648 ≤ z) (h2 : z < 2147483648) : writeI32 z = varint (zigzag z) := by
  rw [writeI32, toZigzag_eq, writeVarint32_eq]
  have := zigzag_lt (k := 2147483648) h1 h2
  omega

theorem writeI64_eq {z : Int} (h1 : -9223372036854775808 ≤ z) (h2 : z < 9223372036854775808) : writeI64 z = varint (zigzag z) := by
  have := zigzag_lt (k := 9223372036854775808) h1 h2
  rw [writeI64, toZigzag_eq, Nat.mod_eq_of_lt (by omega), writeVarintGo_eq]
  exact varintGo_fuel _ _ _ (Nat.lt_trans (by omega : zigzag z < 2 ^ 64) (by decide)) (lt_pow_self _)

theorem writeDouble_eq (x : BitVec 64) : writeDouble x = bytesLE x := by
  have : ∀ i, (x.toNat / 256 ^ i).toUInt8 = UInt8.ofBitVec (x.extractLsb' (8 * i) 8) := by
    intro i
    apply UInt8.toNat_inj.mp
    simp [Nat.toUInt8, BitVec.extractLsb'_toNat, Nat.shiftRight_eq_div_pow, pow_mul]
  simp only [writeDouble, bytesLE, List.range, List.range.loop, List.map_cons, List.map_nil, this]

theorem writeListBegin_eq (t : TType) {n : Nat} (h : n < 2 ^ 32) : writeListBegin t n = listHeader t n := by
  unfold writeListBegin listHeader
  by_cases hn : n < 15
  · rw [if_pos (by omega), if_pos hn]
  · rw [if_neg (by omega), if_neg hn, writeVarint32_eq h]

theorem writeMapBegin_eq (k v : TType) {n : Nat} (h : n < 2 ^ 32) : writeMapBegin k v n = mapHeader k v n := by
  unfold writeMapBegin mapHeader
  rw [writeVarint32_eq h]

theorem zigzag_nat (n : Nat) : zigzag n = 2 * n := by
  unfold zigzag; rw [if_pos (by omega)]; omega

theorem writeFieldBegin_eq (last id : Nat) (t : TType) (h : id < 2 ^ 15) : writeFieldBegin last t id = fieldHeader last id t.code := by
  unfold writeFieldBegin fieldHeader
  by_cases hc : id > last ∧ id - last ≤ 15
  · rw [if_pos hc, if_pos (by omega), show (((id : Int) - last).toNat) = id - last by omega]
  · rw [if_neg hc, if_neg (by omega), writeVarint32_eq (by omega), zigzag_nat]

theorem writeBoolField_eq (last id : Nat) (b : Bool) (h : id < 2 ^ 15) :
    writeBoolField last id b = fieldHeader last id (fieldCode (.bool b)) := by
  have hb : fieldCode (.bool b) = if b then 1 else 2 := by cases b <;> rfl
  unfold writeBoolField fieldHeader
  rw [hb]
  by_cases hc : id > last ∧ id - last ≤ 15
  · rw [if_pos hc, if_pos (c := (last : Int) < id ∧ (id : Int) - last ≤ 15) (by omega), show (((id : Int) - last).toNat) = id - last by omega]
  · rw [if_neg hc, if_neg (c := (last : Int) < id ∧ (id : Int) - last ≤ 15) (by omega), writeVarint32_eq (by omega), zigzag_nat]

/-! ### Plain types -/

theorem eqb_iff {A : Type} [DecidableEq A] (a b : A) : eqb a b = true ↔ a = b := decide_eq_true_iff

theorem same_iff {W : Nat → Type} {t : Ty} (h : t.Plain) (a b : Val W t) : same t a b = true ↔ a = b := by
  cases t <;> simp only [Ty.Plain] at h <;> exact eqb_iff _ _

theorem encVal_plain_ne {W : Nat → Type} (sub : (n : Nat) → W n → TFields) {t : Ty} (h : t.Plain) (v : Val W t) :
    encVal (treeVal sub t v) ≠ [] := by
  cases t <;> simp only [Ty.Plain] at h <;> simp only [treeVal, encVal] <;>
    first | exact varint_ne_nil _ | exact List.cons_ne_nil _ _ | exact fun e => varint_ne_nil _ (List.append_eq_nil_iff.mp e).1

theorem unique_plain {W : Nat → Type} (good : (n : Nat) → W n → Prop) {t : Ty} (h : t.Plain) (v : Val W t) : ValNoDoubles good t v := by
  cases t <;> simp only [Ty.Plain] at h <;> trivial

theorem twice_iff {A : Type} {eq : A → A → Bool} (h : ∀ a b, eq a b = true ↔ a = b) (l : List A) : twice eq l = false ↔ l.Nodup := by
  induction l with
  | nil => simp [twice]
  | cons a l ih =>
    simp only [twice, Bool.or_eq_false_iff, ih, List.nodup_cons]
    refine and_congr ?_ Iff.rfl
    rw [List.any_eq_false]
    constructor
    · intro hx hm
      exact hx a hm ((h a a).mpr rfl)
    · intro hx b hb he
      rw [h] at he; subst he; exact hx hb

theorem Plain.legal {t : Ty} (h : t.Plain) : t.Legal := by
  cases t <;> simp only [Ty.Plain] at h <;> trivial

/-! ### The writer writes the wire format -/

theorem list_goes {A : Type} {limit : Nat} (hl : limit < 2 ^ 31) (t : TType) {f : A → Bytes × Bool} {g : A → TVal} {u : A → Prop}
    (l : List A) (h1 : l.length ≤ limit) (h : ∀ v ∈ l, Goes (f v) (encVal (g v)) (u v)) :
    Goes (andThen (writeListBegin t l.length, true) (writeAll f l)) (encVal (.list t (valsOf (l.map g)))) (All u l) := by
  simp only [encVal, valsOf_length, List.length_map]
  rw [writeListBegin_eq _ (Nat.lt_of_le_of_lt h1 (by omega))]
  exact ((Goes.sure _).andThen (Goes.writeAll _ h)).congr (by simp only [true_and]; exact Iff.rfl)

theorem set_goes {A : Type} {limit : Nat} (hl : limit < 2 ^ 31) (t : TType) {f : A → Bytes × Bool} {g : A → TVal} {eq : A → A → Bool}
    (l : List A) (h1 : l.length ≤ limit) (heq : ∀ a b, eq a b = true ↔ a = b) (hne : ∀ a, encVal (g a) ≠ [])
    (h : ∀ v ∈ l, Goes (f v) (encVal (g v)) True) :
    Goes (andThen (writeListBegin t l.length, !twice eq l) (writeAll f l)) (encVal (.set t (valsOf (l.map g)))) l.Nodup := by
  simp only [encVal, valsOf_length, List.length_map]
  rw [writeListBegin_eq _ (Nat.lt_of_le_of_lt h1 (by omega)), ← twice_iff heq]
  have hall := Goes.writeAll l h
  cases hd : twice eq l with
  | false =>
    refine ⟨fun _ => ?_, fun h => absurd rfl h⟩
    rw [hall.1 fun _ _ => trivial]
    rfl
  | true =>
    refine ⟨fun h => (Bool.noConfusion h), fun _ => ⟨rfl, encVals (valsOf (l.map g)), ?_, rfl⟩⟩
    cases l with
    | nil => simp [twice] at hd
    | cons a l =>
      simp only [List.map_cons, valsOf, encVals, ne_eq, List.append_eq_nil_iff, not_and]
      intro hx
      exact absurd hx (hne a)

theorem map_goes {K A : Type} {limit : Nat} (hl : limit < 2 ^ 31) (kt vt : TType) {f : K × A → Bytes × Bool} {g : K × A → TVal × TVal}
    {u : K × A → Prop} (l : List (K × A)) (h1 : l.length ≤ limit)
    (h : ∀ v ∈ l, Goes (f v) (encVal (g v).1 ++ encVal (g v).2) (u v)) :
    Goes (andThen (writeMapBegin kt vt l.length, true) (writeAll f l)) (encVal (.map kt vt (pairsOf (l.map g)))) (All u l) := by
  simp only [encVal, pairsOf_length, List.length_map]
  rw [writeMapBegin_eq _ _ (Nat.lt_of_le_of_lt h1 (by omega))]
  exact ((Goes.sure _).andThen (Goes.writePairs _ h)).congr (by simp only [true_and]; exact Iff.rfl)

theorem writeVal_goes {W : Nat → Type} {limit : Nat} (hl : limit < 2 ^ 31) {wr : (n : Nat) → W n → Bytes × Bool}
    {sub : (n : Nat) → W n → TFields} {good uni : (n : Nat) → W n → Prop}
    (hw : ∀ n w, good n w → Goes (wr n w) (encVal (.struct (sub n w))) (uni n w)) (t : Ty) (ht : t.Legal) (v : Val W t)
    (hv : ValOk limit good t v) : Goes (writeVal wr t v) (encVal (treeVal sub t v)) (ValNoDoubles uni t v) := by
  induction t with
  | bool => exact Goes.sure _
  | byte => exact Goes.sure _
  | i16 =>
    have h1 := BitVec.toInt_lt (x := (show BitVec 16 from v)); have h2 := BitVec.le_toInt (x := (show BitVec 16 from v))
    simp only [writeVal, treeVal, encVal]
    rw [writeI32_eq (Int.le_trans (by decide) h2) (Int.lt_of_lt_of_le h1 (by decide))]
    exact Goes.sure _
  | i32 =>
    have h1 := BitVec.toInt_lt (x := (show BitVec 32 from v)); have h2 := BitVec.le_toInt (x := (show BitVec 32 from v))
    simp only [writeVal, treeVal, encVal]
    rw [writeI32_eq (Int.le_trans (by decide) h2) (Int.lt_of_lt_of_le h1 (by decide))]
    exact Goes.sure _
  | i64 =>
    have h1 := BitVec.toInt_lt (x := (show BitVec 64 from v)); have h2 := BitVec.le_toInt (x := (show BitVec 64 from v))
    simp only [writeVal, treeVal, encVal]
    rw [writeI64_eq (Int.le_trans (by decide) h2) (Int.lt_of_lt_of_le h1 (by decide))]
    exact Goes.sure _
  | double =>
    simp only [writeVal, treeVal, encVal]
    exact (writeDouble_eq v) ▸ Goes.sure _
  | str =>
    simp only [writeVal, treeVal, encVal, writeString]
    rw [writeVarint32_eq (Nat.lt_of_le_of_lt hv (by omega))]
    exact Goes.sure _
  | list t ih => exact list_goes hl t.ttype v hv.1 fun x hx => ih ht x (hv.2 x hx)
  | set t ih => exact set_goes hl t.ttype v hv.1 (same_iff ht) (fun x => encVal_plain_ne sub ht x) fun x hx =>
      (ih (Plain.legal ht) x (hv.2 x hx)).congr (iff_true_intro (unique_plain uni ht x))
  | map k v' ihk ihv =>
    refine map_goes hl k.ttype v'.ttype v hv.1 fun e he => ?_
    exact ((ihk (Plain.legal ht.1) e.1 (hv.2.2 e he).1).andThen (ihv ht.2 e.2 (hv.2.2 e he).2)).congr
      (and_iff_right (unique_plain uni ht.1 e.1))
  | struct n => exact hw n v hv

theorem boolField_goes (last id : Nat) (h15 : id < 2 ^ 15) (b : Bool) :
    Goes (writeBoolField last id b, true) (fieldHeader last id (fieldCode (.bool b)) ++ (if (TVal.bool b).type = .bool then [] else encVal (.bool b))) True := by
  rw [if_pos (show (TVal.bool b).type = .bool from rfl), List.append_nil, writeBoolField_eq _ _ _ h15]
  exact Goes.sure _

theorem writeField_goes {W : Nat → Type} {wr : (n : Nat) → W n → Bytes × Bool} {sub : (n : Nat) → W n → TFields} (last id : Nat)
    (h15 : id < 2 ^ 15) (t : Ty) (v : Val W t) {u : Prop} (hv : Goes (writeVal wr t v) (encVal (treeVal sub t v)) u) (hu : t = .bool → u) :
    Goes (writeField wr last id t v)
      (fieldHeader last id (fieldCode (treeVal sub t v)) ++ (if (treeVal sub t v).type = .bool then [] else encVal (treeVal sub t v))) u := by
  by_cases hb : t = .bool
  · subst hb
    have := boolField_goes last id h15 v
    exact this.congr (iff_of_true trivial (hu rfl))
  · have e1 : writeField wr last id t v = andThen (writeFieldBegin last t.ttype id, true) (writeVal wr t v) := by
      cases t <;> first | rfl | exact absurd rfl hb
    have e2 : (treeVal sub t v).type ≠ .bool := by
      rw [treeVal_type]; cases t <;> simp_all [Ty.ttype]
    have e3 : fieldCode (treeVal sub t v) = t.ttype.code := by
      cases t <;> first | rfl | exact absurd rfl hb
    rw [e1, if_neg e2, e3, writeFieldBegin_eq _ _ _ h15]
    exact ((Goes.sure _).andThen hv).congr (by simp)

theorem writeSlots_goes {W : Nat → Type} {limit : Nat} (hl : limit < 2 ^ 31) {wr : (n : Nat) → W n → Bytes × Bool}
    {sub : (n : Nat) → W n → TFields} {good uni : (n : Nat) → W n → Prop}
    (hw : ∀ n w, good n w → Goes (wr n w) (encVal (.struct (sub n w))) (uni n w)) (fs : List Field)
    (hf : ∀ f ∈ fs, f.id < 2 ^ 15 ∧ f.ty.Legal) (last : Nat) (s : Slots W fs) (hs : SlotsOk limit good fs s) :
    Goes (writeSlots wr last fs s) (encFields last (treeSlots sub fs s)) (SlotsNoDoubles uni fs s) := by
  induction fs generalizing last with
  | nil => exact Goes.sure _
  | cons f fs ih =>
    obtain ⟨o, s⟩ := s
    obtain ⟨_, h2, h3⟩ := hs
    obtain ⟨h15, hleg⟩ := hf f (by simp)
    have hrest := fun last => ih (fun g hg => hf g (by simp [hg])) last s h3
    cases o with
    | none =>
      simp only [writeSlots, treeSlots]
      exact (hrest last).congr (by simp [SlotsNoDoubles])
    | some v =>
      have hv := writeVal_goes hl hw f.ty hleg v (h2 v rfl)
      have := writeField_goes last f.id h15 f.ty v hv (fun h => by
        have : ∀ t (v : Val W t), t = .bool → ValNoDoubles uni t v := by intro t v e; subst e; trivial
        exact this _ v h)
      simp only [writeSlots, treeSlots, encFields]
      exact (this.andThen (hrest f.id)).congr (by simp [SlotsNoDoubles])

theorem writeStruct_goes {T : Schema} (hT : Legal T) {limit : Nat} (hl : limit < 2 ^ 31) (d n : Nat) (v : Struct T d n)
    (hv : Ok T limit d n v) : Goes (writeStruct T d n v) (encVal (.struct (tree T d n v))) (NoDoubles T d n v) := by
  induction d generalizing n with
  | zero => exact nomatch v
  | succ d ih =>
    simp only [writeStruct, encVal, tree, NoDoubles]
    exact writeSlots_goes hl (fun n w hw => ih n w hw) (T n) (fun f hf => ⟨((hT n).2 f hf).2.1, ((hT n).2 f hf).2.2⟩) 0 v hv

/-! ### Reading values -/

/-- `x` is `y` if `P`, else a failure. -/
def Two {A : Type} (P : Prop) (x : Option A) (y : A) : Prop := (P → x = some y) ∧ (¬ P → x = none)

theorem Two.sure {A : Type} {x : Option A} {y : A} (h : x = some y) {P : Prop} (hP : P) : Two P x y := ⟨fun _ => h, fun hn => absurd hP hn⟩

theorem Two.congr {A : Type} {x : Option A} {y : A} {P Q : Prop} (h : Two P x y) (hPQ : P ↔ Q) : Two Q x y :=
  ⟨fun hq => h.1 (hPQ.mpr hq), fun hq => h.2 (fun hp => hq (hPQ.mp hp))⟩

theorem readN_spec {A B : Type} {f : Bytes → Option (B × Bytes)} {g : A → TVal} {c : A → B} {P : A → Prop} (l : List A)
    (h : ∀ v ∈ l, ∀ r, Two (P v) (f (encVal (g v) ++ r)) (c v, r)) (r : Bytes) :
    Two (∀ v ∈ l, P v) (readN f l.length (encVals (valsOf (l.map g)) ++ r)) (l.map c, r) := by
  induction l with
  | nil => exact Two.sure rfl (by simp)
  | cons a l ih =>
    have ih := ih fun v hv => h v (by simp [hv])
    simp only [List.map_cons, valsOf, encVals, List.length_cons, readN, List.append_assoc, List.mem_cons, forall_eq_or_imp]
    by_cases ha : P a
    · rw [(h a (by simp) _).1 ha]
      simp only
      refine ⟨fun hp => ?_, fun hn => ?_⟩
      · rw [ih.1 hp.2]
      · rw [ih.2 (fun hp => hn ⟨ha, hp⟩)]
    · rw [(h a (by simp) _).2 ha]
      exact ⟨fun hp => absurd hp.1 ha, fun _ => rfl⟩

theorem assign_new {K A : Type} {eq : K → K → Bool} (k : K) (v : A) (m : List (K × A)) (h : ∀ e ∈ m, eq k e.1 = false) :
    assign eq k v m = m ++ [(k, v)] := by
  induction m with
  | nil => rfl
  | cons e m ih =>
    simp only [assign, h e (by simp), Bool.false_eq_true, if_false, List.cons_append]
    rw [ih fun x hx => h x (by simp [hx])]

theorem readEntries_spec {K A K' A' : Type} {eq : K' → K' → Bool} (heq : ∀ a b, eq a b = true ↔ a = b)
    {fk : Bytes → Option (K' × Bytes)} {fv : Bytes → Option (A' × Bytes)} {g : K × A → TVal × TVal} {ck : K → K'} {cv : A → A'}
    {P : A → Prop} (l : List (K × A))
    (h : ∀ e ∈ l, ∀ r, fk (encVal (g e).1 ++ r) = some (ck e.1, r) ∧ Two (P e.2) (fv (encVal (g e).2 ++ r)) (cv e.2, r))
    (m : List (K' × A')) (hn : (m.map Prod.fst ++ l.map (fun e => ck e.1)).Nodup) (r : Bytes) :
    Two (∀ e ∈ l, P e.2) (readEntries eq fk fv l.length m (encPairs (pairsOf (l.map g)) ++ r)) (m ++ l.map (fun e => (ck e.1, cv e.2)), r) := by
  induction l generalizing m with
  | nil => exact Two.sure (by simp [readEntries, pairsOf, encPairs]) (by simp)
  | cons e l ih =>
    simp only [List.map_cons, pairsOf, encPairs, List.length_cons, readEntries, List.append_assoc, List.mem_cons, forall_eq_or_imp]
    rw [(h e (by simp) _).1]
    simp only
    by_cases he : P e.2
    · rw [(h e (by simp) _).2.1 he]
      simp only
      have hnew : ∀ x ∈ m, eq (ck e.1) x.1 = false := by
        intro x hx
        cases hc : eq (ck e.1) x.1 with
        | false => rfl
        | true =>
          rw [heq] at hc
          rw [List.nodup_append] at hn
          exact absurd hc.symm (hn.2.2 x.1 (List.mem_map_of_mem hx) (ck e.1) (by simp))
      have := ih (fun v hv => h v (by simp [hv])) (m ++ [(ck e.1, cv e.2)]) (by simpa using hn)
      rw [assign_new _ _ _ hnew]
      simp only [List.append_assoc, List.cons_append, List.nil_append] at this
      exact this.congr (by simp [he])
    · rw [(h e (by simp) _).2.2 he]
      exact ⟨fun hp => absurd hp.1 he, fun _ => rfl⟩

theorem seenVal_plain {W W' : Nat → Type} (g : (n : Nat) → W n → W' n) {t : Ty} (h : t.Plain) {a b : Val W t}
    (he : seenVal g t a = seenVal g t b) : a = b := by
  cases t <;> simp only [Ty.Plain] at h <;> exact he

theorem readList_spec {A B : Type} {limit : Nat} (hl : limit < 2 ^ 31) (t : TType) {f : Bytes → Option (B × Bytes)} {g : A → TVal} {c : A → B}
    {P : A → Prop}     (l : List A) (h1 : l.length ≤ limit) (h : ∀ v ∈ l, ∀ r, Two (P v) (f (encVal (g v) ++ r)) (c v, r)) (r : Bytes) :
    Two (∀ v ∈ l, P v) (match readListBegin limit (encVal (.list t (valsOf (l.map g))) ++ r) with
      | none => none
      | some ((_, n), r) => readN f n r : Option (List B × Bytes)) (l.map c, r) := by
  simp only [encVal, valsOf_length, List.length_map, List.append_assoc]
  rw [readListBegin_spec hl t h1]
  exact readN_spec l h r

theorem readSet_spec {A B : Type} {limit : Nat} (hl : limit < 2 ^ 31) (t : TType) {f : Bytes → Option (B × Bytes)} {g : A → TVal} {c : A → B}
    {P : A → Prop}     (l : List A) (h1 : l.length ≤ limit) (h : ∀ v ∈ l, ∀ r, Two (P v) (f (encVal (g v) ++ r)) (c v, r)) (r : Bytes) :
    Two (∀ v ∈ l, P v) (match readListBegin limit (encVal (.set t (valsOf (l.map g))) ++ r) with
      | none => none
      | some ((_, n), r) => readN f n r : Option (List B × Bytes)) (l.map c, r) := by
  simp only [encVal, valsOf_length, List.length_map, List.append_assoc]
  rw [readListBegin_spec hl t h1]
  exact readN_spec l h r

theorem readMap_spec {K A K' A' : Type} {limit : Nat} (hl : limit < 2 ^ 31) (kt vt : TType) {eq : K' → K' → Bool}
    (heq : ∀ a b, eq a b = true ↔ a = b) {fk : Bytes → Option (K' × Bytes)} {fv : Bytes → Option (A' × Bytes)} {g : K × A → TVal × TVal}
    {ck : K → K'} {cv : A → A'} {P : A → Prop} (hinj : ∀ a b, ck a = ck b → a = b) (l : List (K × A)) (h1 : l.length ≤ limit) (hd : DifferentKeys l)
    (h : ∀ e ∈ l, ∀ r, fk (encVal (g e).1 ++ r) = some (ck e.1, r) ∧ Two (P e.2) (fv (encVal (g e).2 ++ r)) (cv e.2, r)) (r : Bytes) :
    Two (∀ e ∈ l, P e.2) (match readMapBegin limit (encVal (.map kt vt (pairsOf (l.map g))) ++ r) with
      | none => none
      | some ((_, _, n), r) => readEntries eq fk fv n [] r : Option (List (K' × A') × Bytes))
      (l.map (fun e => (ck e.1, cv e.2)), r) := by
  simp only [encVal, pairsOf_length, List.length_map, List.append_assoc]
  rw [readMapBegin_spec hl kt vt h1]
  have hn : (l.map fun e => ck e.1).Nodup := by
    have : (l.map fun e => ck e.1) = (l.map Prod.fst).map ck := by simp [List.map_map]
    rw [this]
    exact List.Pairwise.map _ (fun a b hab e => hab (hinj a b e)) hd
  have := readEntries_spec heq l h [] (by simpa using hn) r
  by_cases h0 : l.length = 0
  · simp only [h0, if_true]
    rw [h0] at this
    exact this
  · simp only [h0, if_false]
    exact this

theorem fromLE_bytesLE (x : BitVec 64) : BitVec.ofNat 64 (fromLE (bytesLE x)) = x := by
  apply BitVec.eq_of_toNat_eq
  have h : ∀ i, (UInt8.ofBitVec (x.extractLsb' i 8)).toNat = x.toNat / 2 ^ i % 256 := by
    intro i; simp [BitVec.extractLsb'_toNat, Nat.shiftRight_eq_div_pow]
  have hx := x.isLt
  simp only [bytesLE, List.map_cons, List.map_nil, fromLE, h, BitVec.toNat_ofNat]
  generalize x.toNat = n at *
  norm_num
  omega

theorem readDouble_spec (x : BitVec 64) (r : Bytes) : readDouble (bytesLE x ++ r) = some (x, r) := by
  have hlen : (bytesLE x).length = 8 := rfl
  unfold readDouble
  rw [if_neg (by simp [hlen]), List.take_left' hlen, List.drop_left' hlen, fromLE_bytesLE]

theorem readVal_basic {W : Nat → Type} {limit : Nat} (rd : (n : Nat) → Bytes → Option (W n × Bytes)) (r : Bytes) :
    (∀ b : Bool, readVal rd limit .bool (encVal (.bool b) ++ r) = some (b, r)) ∧
    (∀ b : UInt8, readVal rd limit .byte (encVal (.byte b) ++ r) = some (b, r)) ∧
    (∀ x : BitVec 16, readVal rd limit .i16 (encVal (.i16 x.toInt) ++ r) = some (x, r)) ∧
    (∀ x : BitVec 32, readVal rd limit .i32 (encVal (.i32 x.toInt) ++ r) = some (x, r)) ∧
    (∀ x : BitVec 64, readVal rd limit .i64 (encVal (.i64 x.toInt) ++ r) = some (x, r)) ∧
    (∀ x : BitVec 64, readVal rd limit .double (encVal (.double (bytesLE x)) ++ r) = some (x, r)) := by
  refine ⟨fun b => by cases b <;> rfl, fun b => rfl, fun x => ?_, fun x => ?_, fun x => ?_, fun x => ?_⟩
  · have h1 := BitVec.toInt_lt (x := x); have h2 := BitVec.le_toInt (x := x)
    simp only [readVal, encVal]
    rw [readI16_spec ⟨h2, h1⟩]
    simp only [BitVec.ofInt_toInt]
    rfl
  · have h1 := BitVec.toInt_lt (x := x); have h2 := BitVec.le_toInt (x := x)
    simp only [readVal, encVal, readI32, readVarint_varint]
    have := zigzag_lt (k := 2147483648) h2 h1
    rw [Nat.mod_eq_of_lt (by omega), unzigzag_zigzag, BitVec.ofInt_toInt]
  · have h1 := BitVec.toInt_lt (x := x); have h2 := BitVec.le_toInt (x := x)
    simp only [readVal, encVal, readI64, readVarint_varint]
    have := zigzag_lt (k := 9223372036854775808) h2 h1
    rw [Nat.mod_eq_of_lt (by omega), unzigzag_zigzag, BitVec.ofInt_toInt]
  · exact readDouble_spec x r

theorem readVal_plain {W W' : Nat → Type} {limit : Nat} (hl : limit < 2 ^ 31) (rd : (n : Nat) → Bytes → Option (W' n × Bytes))
    (sub : (n : Nat) → W n → TFields) {good : (n : Nat) → W n → Prop} (g : (n : Nat) → W n → W' n) {t : Ty} (ht : t.Plain) (v : Val W t)
    (hv : ValOk limit good t v) (r : Bytes) : readVal rd limit t (encVal (treeVal sub t v) ++ r) = some (seenVal g t v, r) := by
  have hb := readVal_basic (limit := limit) rd r
  cases t with
  | bool => exact hb.1 v
  | byte => exact hb.2.1 v
  | i16 => exact hb.2.2.1 v
  | i32 => exact hb.2.2.2.1 v
  | i64 => exact hb.2.2.2.2.1 v
  | str => exact readString_spec hl v r hv
  | _ => exact ht.elim

theorem valAll_plain {W : Nat → Type} (p : (n : Nat) → W n → Prop) {t : Ty} (ht : t.Plain) (v : Val W t) : ValAll p t v := by
  cases t <;> simp only [Ty.Plain] at ht <;> trivial

theorem readVal_spec {W W' : Nat → Type} {limit : Nat} (hl : limit < 2 ^ 31) {rd : (n : Nat) → Bytes → Option (W' n × Bytes)}
    {sub : (n : Nat) → W n → TFields} {good p : (n : Nat) → W n → Prop} {g : (n : Nat) → W n → W' n}
    (hr : ∀ n w, good n w → ∀ r, Two (p n w) (rd n (encVal (.struct (sub n w)) ++ r)) (g n w, r)) (t : Ty) (ht : t.Legal) (v : Val W t)
    (hv : ValOk limit good t v) (r : Bytes) :
    Two (ValAll p t v) (readVal rd limit t (encVal (treeVal sub t v) ++ r)) (seenVal g t v, r) := by
  induction t generalizing r with
  | double => exact Two.sure (readDouble_spec v r) trivial
  | list t ih => exact readList_spec hl t.ttype v hv.1 (fun x hx r => ih ht x (hv.2 x hx) r) r
  | set t ih => exact readSet_spec hl t.ttype v hv.1 (fun x hx r => ih (Plain.legal ht) x (hv.2 x hx) r) r
  | map k v' ihk ihv =>
    refine Two.congr (readMap_spec hl k.ttype v'.ttype (same_iff ht.1) (fun a b => seenVal_plain g ht.1) v hv.1 hv.2.1 (fun e he r =>
      ⟨readVal_plain hl rd sub g ht.1 e.1 (hv.2.2 e he).1 r, ihv ht.2 e.2 (hv.2.2 e he).2 r⟩) r) ?_
    exact forall₂_congr fun e _ => (and_iff_right (valAll_plain p ht.1 e.1)).symm
  | struct n => exact hr n v hv r
  | _ => exact Two.sure (readVal_plain hl rd sub g (by trivial) v hv r) trivial

/-! ### How deep skipping goes -/

mutual
def tdepth : TVal → Nat
  | .struct fs => 1 + fdepth fs
  | .map _ _ es => 1 + pdepth es
  | .list _ es => 1 + ldepth es
  | .set _ es => 1 + ldepth es
  | _ => 1
def fdepth : TFields → Nat
  | .nil => 0
  | .cons _ v rest => max (tdepth v) (fdepth rest)
def pdepth : TPairs → Nat
  | .nil => 0
  | .cons k v rest => max (max (tdepth k) (tdepth v)) (pdepth rest)
def ldepth : TVals → Nat
  | .nil => 0
  | .cons v rest => max (tdepth v) (ldepth rest)
end

mutual
theorem okVal_depth {limit D d : Nat} (v : TVal) (h : okVal limit D v) (hd : tdepth v ≤ d) : okVal limit d v := by
  match v with
  | .bool _ | .byte _ | .i16 _ | .i32 _ | .i64 _ => simp only [tdepth] at hd; simp only [okVal]; omega
  | .double _ | .str _ => simp only [tdepth] at hd; simp only [okVal] at h ⊢; exact ⟨by omega, h.2⟩
  | .struct fs => simp only [tdepth] at hd; simp only [okVal] at h ⊢; exact ⟨by omega, okFields_depth fs h.2 (by omega)⟩
  | .map kt vt es => simp only [tdepth] at hd; simp only [okVal] at h ⊢; exact ⟨by omega, h.2.1, okPairs_depth es h.2.2 (by omega)⟩
  | .list t es => simp only [tdepth] at hd; simp only [okVal] at h ⊢; exact ⟨by omega, h.2.1, okVals_depth es h.2.2 (by omega)⟩
  | .set t es => simp only [tdepth] at hd; simp only [okVal] at h ⊢; exact ⟨by omega, h.2.1, okVals_depth es h.2.2 (by omega)⟩
theorem okFields_depth {limit D d : Nat} (fs : TFields) (h : okFields limit D fs) (hd : fdepth fs ≤ d) : okFields limit d fs := by
  match fs with
  | .nil => trivial
  | .cons id v rest =>
    simp only [fdepth] at hd
    simp only [okFields] at h ⊢
    exact ⟨h.1, okVal_depth v h.2.1 (by omega), okFields_depth rest h.2.2 (by omega)⟩
theorem okPairs_depth {limit D d : Nat} {kt vt : TType} (es : TPairs) (h : okPairs limit D kt vt es) (hd : pdepth es ≤ d) : okPairs limit d kt vt es := by
  match es with
  | .nil => trivial
  | .cons k v rest =>
    simp only [pdepth] at hd
    simp only [okPairs] at h ⊢
    exact ⟨h.1, okVal_depth k h.2.1 (by omega), okVal_depth v h.2.2.1 (by omega), okPairs_depth rest h.2.2.2 (by omega)⟩
theorem okVals_depth {limit D d : Nat} {t : TType} (es : TVals) (h : okVals limit D t es) (hd : ldepth es ≤ d) : okVals limit d t es := by
  match es with
  | .nil => trivial
  | .cons v rest =>
    simp only [ldepth] at hd
    simp only [okVals] at h ⊢
    exact ⟨h.1, okVal_depth v h.2.1 (by omega), okVals_depth rest h.2.2 (by omega)⟩
end

mutual
theorem skip_deep {limit : Nat} (hl : limit < 2 ^ 31) (v : TVal) (D d : Nat) (h : okVal limit D v) (hd : d < tdepth v) (r : Bytes) :
    skip limit d (some v.type) false (encVal v ++ r) = none := by
  match d, v with
  | 0, _ => rfl
  | d + 1, .bool _ | d + 1, .byte _ | d + 1, .i16 _ | d + 1, .i32 _ | d + 1, .i64 _ | d + 1, .double _ | d + 1, .str _ =>
    simp only [tdepth] at hd; omega
  | d + 1, .struct fs =>
    simp only [tdepth] at hd
    simp only [okVal] at h
    simp only [encVal, skip, TVal.type]
    exact skip_fields_deep hl fs (D - 1) d h.2 (by omega) 0 (by omega) _ r
  | d + 1, .map kt vt es =>
    simp only [tdepth] at hd
    simp only [okVal] at h
    simp only [encVal, skip, TVal.type, List.append_assoc, readMapBegin_spec hl kt vt h.2.1]
    by_cases hn : es.length = 0
    · cases es with
      | nil => simp [pdepth] at hd
      | cons => simp [TPairs.length] at hn
    · rw [if_neg hn]
      exact skip_pairs_deep hl kt vt es (D - 1) d h.2.2 (by omega) r
  | d + 1, .list t es =>
    simp only [tdepth] at hd
    simp only [okVal] at h
    simp only [encVal, skip, TVal.type, List.append_assoc, readListBegin_spec hl t h.2.1]
    exact skip_vals_deep hl t es (D - 1) d h.2.2 (by omega) r
  | d + 1, .set t es =>
    simp only [tdepth] at hd
    simp only [okVal] at h
    simp only [encVal, skip, TVal.type, List.append_assoc, readListBegin_spec hl t h.2.1]
    exact skip_vals_deep hl t es (D - 1) d h.2.2 (by omega) r

theorem skip_fields_deep {limit : Nat} (hl : limit < 2 ^ 31) (fs : TFields) (D d : Nat) (h : okFields limit D fs) (hd : d < fdepth fs)
    (last : Int) (hlast : -32768 ≤ last ∧ last < 32768) (fuel : Nat) (r : Bytes) :
    skipFields (fun t p => skip limit d (some t) p) fuel last (encFields last fs ++ r) = none := by
  match fuel, fs with
  | 0, _ => rfl
  | fuel + 1, .nil => simp [fdepth] at hd
  | fuel + 1, .cons id v rest =>
    simp only [okFields] at h
    simp only [fdepth] at hd
    simp only [encFields, skipFields, List.append_assoc]
    rw [readFieldBegin_spec hlast h.1 (fieldCode_bounds v) (getTType_fieldCode v)]
    simp only
    by_cases hv : d < tdepth v
    · by_cases hb : v.type = .bool
      · have h1 : tdepth v = 1 := by cases v <;> simp [TVal.type] at hb; rfl
        obtain rfl : d = 0 := by omega
        rfl
      · rw [if_neg hb]
        simp only [hb, decide_false]
        rw [skip_deep hl v D d h.2.1 hv]
    · have hrest := skip_fields_deep hl rest D d h.2.2 (by omega) id h.1 fuel r
      have hok := okVal_depth v h.2.1 (Nat.le_of_not_lt hv)
      by_cases hb : v.type = .bool
      · rw [if_pos hb, hb]
        simp only [decide_true, List.nil_append]
        rw [skip_bool limit d (okVal_pos hok)]
        exact hrest
      · rw [if_neg hb]
        simp only [hb, decide_false]
        rw [skip_val hl v d d hok (Nat.le_refl _)]
        exact hrest

theorem skip_pairs_deep {limit : Nat} (hl : limit < 2 ^ 31) (kt vt : TType) (es : TPairs) (D d : Nat) (h : okPairs limit D kt vt es)
    (hd : d < pdepth es) (r : Bytes) :
    repeatN (fun b => match skip limit d (some kt) false b with
      | some b => skip limit d (some vt) false b
      | none => none) es.length (encPairs es ++ r) = none := by
  match es with
  | .nil => simp [pdepth] at hd
  | .cons k v rest =>
    simp only [okPairs] at h
    simp only [pdepth] at hd
    simp only [encPairs, TPairs.length, repeatN, List.append_assoc]
    by_cases hk : d < tdepth k
    · rw [← h.1.1, skip_deep hl k D d h.2.1 hk]
    · rw [← h.1.1, skip_val hl k d d (okVal_depth k h.2.1 (Nat.le_of_not_lt hk)) (Nat.le_refl _)]
      simp only
      by_cases hv : d < tdepth v
      · rw [← h.1.2, skip_deep hl v D d h.2.2.1 hv]
      · rw [← h.1.2, skip_val hl v d d (okVal_depth v h.2.2.1 (Nat.le_of_not_lt hv)) (Nat.le_refl _), h.1.1, h.1.2]
        exact skip_pairs_deep hl kt vt rest D d h.2.2.2 (by omega) r

theorem skip_vals_deep {limit : Nat} (hl : limit < 2 ^ 31) (t : TType) (es : TVals) (D d : Nat) (h : okVals limit D t es)
    (hd : d < ldepth es) (r : Bytes) :
    repeatN (skip limit d (some t) false) es.length (encVals es ++ r) = none := by
  match es with
  | .nil => simp [ldepth] at hd
  | .cons v rest =>
    simp only [okVals] at h
    simp only [ldepth] at hd
    simp only [encVals, TVals.length, repeatN, List.append_assoc]
    by_cases hv : d < tdepth v
    · rw [← h.1, skip_deep hl v D d h.2.1 hv]
    · rw [← h.1, skip_val hl v d d (okVal_depth v h.2.1 (Nat.le_of_not_lt hv)) (Nat.le_refl _), h.1]
      exact skip_vals_deep hl t rest D d h.2.2 (by omega) r
end

theorem ldepth_of {A : Type} {g : A → TVal} {dep : A → Nat} (l : List A) (h : ∀ v ∈ l, tdepth (g v) = dep v) :
    ldepth (valsOf (l.map g)) = largest (l.map dep) := by
  induction l with
  | nil => rfl
  | cons a l ih =>
    simp only [List.map_cons, valsOf, ldepth, largest, List.foldr_cons]
    rw [h a (by simp), ih fun v hv => h v (by simp [hv])]
    rfl

theorem pdepth_of {A : Type} {g : A → TVal × TVal} {dep : A → Nat} (l : List A) (h : ∀ v ∈ l, max (tdepth (g v).1) (tdepth (g v).2) = dep v) :
    pdepth (pairsOf (l.map g)) = largest (l.map dep) := by
  induction l with
  | nil => rfl
  | cons a l ih =>
    simp only [List.map_cons, pairsOf, pdepth, largest, List.foldr_cons]
    rw [h a (by simp), ih fun v hv => h v (by simp [hv])]
    rfl

theorem tdepth_tree {W : Nat → Type} {sub : (n : Nat) → W n → TFields} {dep : (n : Nat) → W n → Nat}
    (hs : ∀ n w, tdepth (.struct (sub n w)) = dep n w) (t : Ty) (v : Val W t) : tdepth (treeVal sub t v) = depthVal dep t v := by
  induction t with
  | list t ih => exact congrArg (1 + ·) (ldepth_of v fun x _ => ih x)
  | set t ih => exact congrArg (1 + ·) (ldepth_of v fun x _ => ih x)
  | map k t ihk ihv => exact congrArg (1 + ·) (pdepth_of v fun x _ => by rw [ihk, ihv])
  | struct n => exact hs n v
  | _ => rfl

theorem fdepth_tree {W : Nat → Type} {sub : (n : Nat) → W n → TFields} {dep : (n : Nat) → W n → Nat}
    (hs : ∀ n w, tdepth (.struct (sub n w)) = dep n w) (fs : List Field) (s : Slots W fs) : fdepth (treeSlots sub fs s) = depthSlots dep fs s := by
  induction fs with
  | nil => rfl
  | cons f fs ih =>
    obtain ⟨o, s⟩ := s
    cases o with
    | none => simp only [treeSlots, depthSlots, ih]; omega
    | some v => simp only [treeSlots, depthSlots, fdepth, ih, tdepth_tree hs]

theorem tdepth_struct (T : Schema) (d n : Nat) (v : Struct T d n) : tdepth (.struct (tree T d n v)) = depth T d n v := by
  induction d generalizing n with
  | zero => exact nomatch v
  | succ d ih => exact congrArg (1 + ·) (fdepth_tree ih (T n) v)

/-! ### Skipping values -/

theorem le_largest {l : List Nat} {a : Nat} (h : a ∈ l) : a ≤ largest l := by
  induction l with
  | nil => simp at h
  | cons b l ih =>
    simp only [largest, List.foldr_cons] at ih ⊢
    rcases List.mem_cons.mp h with rfl | h
    · exact Nat.le_max_left _ _
    · exact Nat.le_trans (ih h) (Nat.le_max_right _ _)

theorem okVals_of {A : Type} {limit D : Nat} {t : TType} {g : A → TVal} (l : List A) (h : ∀ v ∈ l, (g v).type = t ∧ okVal limit D (g v)) :
    okVals limit D t (valsOf (l.map g)) := by
  induction l with
  | nil => simp [valsOf, okVals]
  | cons a l ih =>
    simp only [List.map_cons, valsOf, okVals]
    exact ⟨(h a (by simp)).1, (h a (by simp)).2, ih fun v hv => h v (by simp [hv])⟩

theorem okPairs_of {A : Type} {limit D : Nat} {kt vt : TType} {g : A → TVal × TVal} (l : List A)
    (h : ∀ v ∈ l, ((g v).1.type = kt ∧ (g v).2.type = vt) ∧ okVal limit D (g v).1 ∧ okVal limit D (g v).2) :
    okPairs limit D kt vt (pairsOf (l.map g)) := by
  induction l with
  | nil => simp [pairsOf, okPairs]
  | cons a l ih =>
    simp only [List.map_cons, pairsOf, okPairs]
    exact ⟨(h a (by simp)).1, (h a (by simp)).2.1, (h a (by simp)).2.2, ih fun v hv => h v (by simp [hv])⟩

theorem okSeq_of {A : Type} {limit D : Nat} {t : TType} {g : A → TVal} {dep : A → Nat} (l : List A) (h1 : l.length ≤ limit)
    (hd : 1 + largest (l.map dep) ≤ D) (ht : ∀ v, (g v).type = t) (h : ∀ v ∈ l, dep v ≤ D - 1 → okVal limit (D - 1) (g v)) :
    okVal limit D (.list t (valsOf (l.map g))) ∧ okVal limit D (.set t (valsOf (l.map g))) := by
  have : okVals limit (D - 1) t (valsOf (l.map g)) := okVals_of l fun v hv =>
    ⟨ht v, h v hv (by have := le_largest (List.mem_map_of_mem (f := dep) hv); omega)⟩
  simp only [okVal, valsOf_length, List.length_map]
  exact ⟨⟨by omega, h1, this⟩, by omega, h1, this⟩

theorem okMap_of {K A : Type} {limit D : Nat} {kt vt : TType} {gk : K → TVal} {gv : A → TVal} {dk : K → Nat} {dv : A → Nat} (l : List (K × A))
    (h1 : l.length ≤ limit) (hd : 1 + largest (l.map fun e => max (dk e.1) (dv e.2)) ≤ D) (hk : ∀ v, (gk v).type = kt) (hv : ∀ v, (gv v).type = vt)
    (h : ∀ e ∈ l, (dk e.1 ≤ D - 1 → okVal limit (D - 1) (gk e.1)) ∧ (dv e.2 ≤ D - 1 → okVal limit (D - 1) (gv e.2))) :
    okVal limit D (.map kt vt (pairsOf (l.map fun e => (gk e.1, gv e.2)))) := by
  simp only [okVal, pairsOf_length, List.length_map]
  refine ⟨by omega, h1, okPairs_of l fun e he => ⟨⟨hk _, hv _⟩, ?_⟩⟩
  have := le_largest (List.mem_map_of_mem (f := fun e => max (dk e.1) (dv e.2)) he)
  exact ⟨(h e he).1 (by omega), (h e he).2 (by omega)⟩

theorem treeVal_ok {W : Nat → Type} {limit : Nat} {sub : (n : Nat) → W n → TFields} {dep : (n : Nat) → W n → Nat}
    {good : (n : Nat) → W n → Prop} (hs : ∀ n w D, good n w → dep n w ≤ D → okVal limit D (.struct (sub n w))) (t : Ty) (v : Val W t)
    (hv : ValOk limit good t v) (D : Nat) (hd : depthVal dep t v ≤ D) : okVal limit D (treeVal sub t v) := by
  induction t generalizing D with
  | bool => exact hd
  | byte => exact hd
  | i16 => exact hd
  | i32 => exact hd
  | i64 => exact hd
  | double => exact ⟨hd, rfl⟩
  | str => exact ⟨hd, hv⟩
  | list t ih => exact (okSeq_of v hv.1 hd (fun v => treeVal_type sub t v) fun x hx h => ih x (hv.2 x hx) _ h).1
  | set t ih => exact (okSeq_of v hv.1 hd (fun v => treeVal_type sub t v) fun x hx h => ih x (hv.2 x hx) _ h).2
  | map k v' ihk ihv =>
    exact okMap_of v hv.1 hd (fun v => treeVal_type sub k v) (fun v => treeVal_type sub v' v) fun e he =>
      ⟨fun h => ihk e.1 (hv.2.2 e he).1 _ h, fun h => ihv e.2 (hv.2.2 e he).2 _ h⟩
  | struct n => exact hs n v D hv hd

theorem treeSlots_ok {W : Nat → Type} {limit : Nat} {sub : (n : Nat) → W n → TFields} {dep : (n : Nat) → W n → Nat}
    {good : (n : Nat) → W n → Prop} (hs : ∀ n w D, good n w → dep n w ≤ D → okVal limit D (.struct (sub n w))) (fs : List Field)
    (hf : ∀ f ∈ fs, f.id < 2 ^ 15) (s : Slots W fs) (hv : SlotsOk limit good fs s) (D : Nat) (hd : depthSlots dep fs s ≤ D) :
    okFields limit D (treeSlots sub fs s) := by
  induction fs with
  | nil => trivial
  | cons f fs ih =>
    obtain ⟨o, s⟩ := s
    obtain ⟨_, h2, h3⟩ := hv
    simp only [depthSlots] at hd
    have hrest := ih (fun g hg => hf g (by simp [hg])) s h3 (by omega)
    cases o with
    | none => exact hrest
    | some v =>
      have := hf f (by simp)
      simp only [treeSlots, okFields]
      exact ⟨by omega, treeVal_ok hs f.ty v (h2 v rfl) D (by simp only at hd; omega), hrest⟩

theorem tree_ok {T : Schema} (hT : Legal T) {limit : Nat} (d n : Nat) (v : Struct T d n) (D : Nat) (hv : Ok T limit d n v)
    (hd : depth T d n v ≤ D) : okVal limit D (.struct (tree T d n v)) := by
  induction d generalizing n D with
  | zero => exact nomatch v
  | succ d ih =>
    simp only [depth] at hd
    simp only [okVal, tree]
    exact ⟨by omega, treeSlots_ok (fun n w D h1 h2 => ih n w D h1 h2) (T n) (fun f hf => ((hT n).2 f hf).2.1) v hv (D - 1) (by omega)⟩

/-! ### Reading fields -/

theorem fieldHeader_head (last id : Int) {code : Nat} (hc : 1 ≤ code ∧ code ≤ 12) (r : Bytes) :
    ((fieldHeader last id code ++ r).head?.any fun b => b.toNat % 16 = 1) = decide (code = 1) := by
  unfold fieldHeader
  split
  · simp only [List.cons_append, List.head?_cons, Option.any_some]
    rw [toUInt8_toNat (by omega)]
    congr 1
    rw [eq_iff_iff]; omega
  · simp only [List.cons_append, List.head?_cons, Option.any_some]
    rw [toUInt8_toNat (by omega)]
    congr 1
    rw [eq_iff_iff]; omega

theorem readHeader_spec {W : Nat → Type} (sub : (n : Nat) → W n → TFields) {last id : Int} (hla : -32768 ≤ last ∧ last < 32768)
    (hi : -32768 ≤ id ∧ id < 32768) (t : Ty) (v : Val W t) (r : Bytes) :
    readHeader last (fieldHeader last id (fieldCode (treeVal sub t v)) ++ r) =
      some (some (t.ttype, id, decide (fieldCode (treeVal sub t v) = 1)), r) := by
  have hc := fieldCode_bounds (treeVal sub t v)
  unfold readHeader
  rw [readFieldBegin_spec hla hi hc (getTType_fieldCode _), treeVal_type]
  simp only
  rw [fieldHeader_head _ _ hc]

/-- The context `K` around the fields `gs'` at the end of the fields `gs`: fields with ids not in `pre` are looked up
among `gs'`. -/
def Ctx {W : Nat → Type} (rd : (n : Nat) → Bytes → Option (W n × Bytes)) (limit : Nat) (gs gs' : List Field)
    (K : Slots W gs' → Slots W gs) (pre : List Nat) : Prop :=
  ∀ (id : Nat) t b bs s, id ∉ pre → readSlot rd limit id t b bs gs (K s) =
    (readSlot rd limit id t b bs gs' s).map (Option.map fun x => (K x.1, x.2))

theorem Ctx.refl {W : Nat → Type} (rd : (n : Nat) → Bytes → Option (W n × Bytes)) (limit : Nat) (gs : List Field) :
    Ctx rd limit gs gs id [] := by
  intro id t b bs s _
  simp only [id_eq]
  rcases readSlot rd limit id t b bs gs s with _ | _ | ⟨a, b⟩ <;> rfl

theorem Ctx.cons {W : Nat → Type} {rd : (n : Nat) → Bytes → Option (W n × Bytes)} {limit : Nat} {gs gs' : List Field} {g : Field}
    {K : Slots W (g :: gs') → Slots W gs} {pre : List Nat} (h : Ctx rd limit gs (g :: gs') K pre) (o : Option (Val W g.ty)) :
    Ctx rd limit gs gs' (fun s => K (o, s)) (g.id :: pre) := by
  intro id t b bs s hid
  simp only [List.mem_cons, not_or] at hid
  refine (h id t b bs (o, s) hid.2).trans ?_
  simp only [readSlot]
  rw [if_neg (by omega)]
  rcases readSlot rd limit id t b bs gs' s with _ | _ | ⟨a, b⟩ <;> rfl

theorem readSlot_none {W : Nat → Type} (rd : (n : Nat) → Bytes → Option (W n × Bytes)) (limit : Nat) (id : Nat) (t : TType) (b : Bool)
    (bs : Bytes) (gs : List Field) (s : Slots W gs) (h : ∀ g ∈ gs, g.id = id → g.ty.ttype ≠ t) :
    readSlot rd limit id t b bs gs s = some none := by
  induction gs with
  | nil => rfl
  | cons g gs ih =>
    simp only [readSlot]
    by_cases hg : (g.id : Int) = id
    · rw [if_pos hg, if_neg (h g (by simp) (by omega))]
    · rw [if_neg hg, ih _ fun x hx => h x (by simp [hx])]

/-- The fields as they are after the loop. -/
def rawSlots {W W' : Nat → Type} (g : (n : Nat) → W n → W' n) : {fs gs : List Field} → Change fs gs → Slots W fs → Slots W' gs
  | _, _, .nil, _ => ()
  | _, _, .same f _ c, s => (s.1.map (seenVal g f.ty), rawSlots g c s.2)
  | _, _, .dropped _ c, s => rawSlots g c s.2
  | _, _, .added _ c, s => (none, rawSlots g c s)

theorem finish_raw {W W' : Nat → Type} (g : (n : Nat) → W n → W' n) {fs gs : List Field} (c : Change fs gs) (s : Slots W fs) :
    (Given c s → finish gs (rawSlots g c s) = some (seenSlots g c s)) ∧ (¬ Given c s → finish gs (rawSlots g c s) = none) := by
  induction c with
  | nil => exact ⟨fun _ => rfl, fun h => absurd trivial h⟩
  | dropped f c ih => exact ih s.2
  | added h c ih =>
    obtain ⟨h1, h2⟩ := ih s
    simp only [Given, rawSlots, seenSlots, finish]
    by_cases hg : Given c s
    · rw [h1 hg]
      cases hq : h.req <;> simp [hg, absent]
    · rw [h2 hg]; simp [hg]
  | same f q c ih =>
    obtain ⟨o, s⟩ := s
    obtain ⟨h1, h2⟩ := ih s
    simp only [Given, rawSlots, seenSlots, finish]
    by_cases hg : Given c s
    · rw [h1 hg]
      cases o <;> cases q <;> simp [hg, absent]
    · rw [h2 hg]; simp [hg]

theorem readField_spec {W W' : Nat → Type} {rd : (n : Nat) → Bytes → Option (W' n × Bytes)} {limit : Nat} {sub : (n : Nat) → W n → TFields}
    {g : (n : Nat) → W n → W' n} {p : (n : Nat) → W n → Prop} (t : Ty) (v : Val W t) (r : Bytes)
    (h : Two (ValAll p t v) (readVal rd limit t (encVal (treeVal sub t v) ++ r)) (seenVal g t v, r)) :
    Two (ValAll p t v) (readField rd limit (decide (fieldCode (treeVal sub t v) = 1)) t
      ((if (treeVal sub t v).type = .bool then [] else encVal (treeVal sub t v)) ++ r)) (seenVal g t v, r) := by
  by_cases hb : t = .bool
  · subst hb
    have : ∀ b : Bool, decide (fieldCode (.bool b) = 1) = b := by intro b; cases b <;> rfl
    exact Two.sure (congrArg (fun b => some (b, r)) (this v)) trivial
  · have e2 : (treeVal sub t v).type ≠ .bool := by
      rw [treeVal_type]; cases t <;> simp_all [Ty.ttype]
    rw [if_neg e2]
    have e1 : ∀ b bs, readField rd limit b t bs = readVal rd limit t bs := by
      intro b bs; cases t <;> first | rfl | exact absurd rfl hb
    rw [e1]; exact h

theorem skipField_spec {W : Nat → Type} {limit : Nat} (hl : limit < 2 ^ 31) {sub : (n : Nat) → W n → TFields} (t : Ty) (v : Val W t) (r : Bytes)
    (h : ∃ D, okVal limit D (treeVal sub t v)) :
    Two (tdepth (treeVal sub t v) ≤ 64) (skip limit maxDepth (some t.ttype) (decide (t.ttype = .bool))
      ((if (treeVal sub t v).type = .bool then [] else encVal (treeVal sub t v)) ++ r)) r := by
  obtain ⟨D, hD⟩ := h
  rw [treeVal_type]
  by_cases hb : t.ttype = .bool
  · rw [if_pos hb, hb]
    have : tdepth (treeVal sub t v) = 1 := by cases t <;> simp [Ty.ttype] at hb; rfl
    exact Two.sure (skip_bool limit 64 (by omega) _) (by omega)
  · rw [if_neg hb]
    simp only [hb, decide_false]
    refine ⟨fun h => ?_, fun h => ?_⟩
    · have := skip_val hl (treeVal sub t v) 64 64 (okVal_depth _ hD h) (Nat.le_refl _) r
      rw [treeVal_type] at this
      exact this
    · have := skip_deep hl (treeVal sub t v) D 64 hD (by omega) r
      rw [treeVal_type] at this
      exact this

theorem readSlots_spec {W W' : Nat → Type} {limit : Nat} (hl : limit < 2 ^ 31) {rd : (n : Nat) → Bytes → Option (W' n × Bytes)}
    {sub : (n : Nat) → W n → TFields} {good p : (n : Nat) → W n → Prop} {g : (n : Nat) → W n → W' n} {dep : (n : Nat) → W n → Nat}
    (hr : ∀ n w, good n w → ∀ r, Two (p n w) (rd n (encVal (.struct (sub n w)) ++ r)) (g n w, r))
    (hs : ∀ n w D, good n w → dep n w ≤ D → okVal limit D (.struct (sub n w))) (hdep : ∀ n w, tdepth (.struct (sub n w)) = dep n w)
    {fs gs' : List Field} (c : Change fs gs') (gs : List Field) (K : Slots W' gs' → Slots W' gs) (pre : List Nat)
    (hK : Ctx rd limit gs gs' K pre) (hpre : ∀ h ∈ gs', h.id ∉ pre) (hdis : gs'.Pairwise (fun f g => f.id ≠ g.id))
    (hsound : ∀ f ∈ c.lost, ∀ h ∈ gs, h.id = f.id → h.ty.ttype ≠ f.ty.ttype)
    (hf : ∀ f ∈ fs, f.id < 2 ^ 15 ∧ f.ty.Legal) (s : Slots W fs) (hok : SlotsOk limit good fs s)
    (last : Nat) (hlast : last < 2 ^ 15) (fuel : Nat) (hfuel : fieldsLen (treeSlots sub fs s) < fuel) (r : Bytes) :
    Two (SlotsReadable dep p c s) (readSlots rd limit gs fuel last (K (noSlots W' gs')) (encFields last (treeSlots sub fs s) ++ r))
      (K (rawSlots g c s), r) := by
  induction c generalizing pre last fuel with
  | nil =>
    obtain ⟨fuel, rfl⟩ : ∃ k, fuel = k + 1 := ⟨fuel - 1, by omega⟩
    exact Two.sure rfl trivial
  | @added fs gs' h c ih =>
    rw [List.pairwise_cons] at hdis
    refine ih (fun s => K (none, s)) (h.id :: pre) (hK.cons none) ?_ hdis.2 hsound hf s hok last hlast fuel hfuel
    intro x hx hm
    rcases List.mem_cons.mp hm with hm | hm
    · exact hdis.1 x hx hm.symm
    · exact hpre x (by simp [hx]) hm
  | @dropped fs gs' f c ih =>
    obtain ⟨o, s⟩ := s
    have hrec := fun last hlast fuel hfuel => ih K pre hK hpre hdis (fun x hx => hsound x (by simp [Change.lost, hx]))
      (fun x hx => hf x (by simp [hx])) s hok.2.2 last hlast fuel hfuel
    cases o with
    | none => exact (hrec last hlast fuel hfuel).congr (by simp [SlotsReadable])
    | some v =>
      obtain ⟨h15, hleg⟩ := hf f (by simp)
      obtain ⟨fuel, rfl⟩ : ∃ k, fuel = k + 1 := ⟨fuel - 1, by omega⟩
      simp only [treeSlots, fieldsLen] at hfuel
      simp only [treeSlots, encFields, List.append_assoc, readSlots]
      rw [readHeader_spec sub (by omega) (by omega)]
      simp only
      rw [readSlot_none rd limit f.id f.ty.ttype _ _ gs _ (hsound f (by simp [Change.lost]))]
      simp only
      have hskip := fun r => skipField_spec hl f.ty v r ⟨_, treeVal_ok hs f.ty v (hok.2.1 v rfl) _ (Nat.le_refl _)⟩
      rw [tdepth_tree hdep] at hskip
      have hrec := hrec f.id h15 fuel (by omega)
      by_cases hd : depthVal dep f.ty v ≤ 64
      · rw [(hskip _).1 hd]
        exact hrec.congr (by simp [SlotsReadable, hd])
      · rw [(hskip _).2 hd]
        exact ⟨fun h => absurd (h.1 v rfl) hd, fun _ => rfl⟩
  | @same fs gs' f q c ih =>
    obtain ⟨o, s⟩ := s
    rw [List.pairwise_cons] at hdis
    have hpre' : ∀ h ∈ gs', h.id ∉ f.id :: pre := by
      intro x hx hm
      rcases List.mem_cons.mp hm with hm | hm
      · exact hdis.1 x hx hm.symm
      · exact hpre x (by simp [hx]) hm
    have hrec := fun o last hlast fuel hfuel => ih (fun s => K (o, s)) (f.id :: pre) (hK.cons o) hpre' hdis.2 hsound
      (fun x hx => hf x (by simp [hx])) s hok.2.2 last hlast fuel hfuel
    cases o with
    | none => exact (hrec none last hlast fuel hfuel).congr (by simp [SlotsReadable])
    | some v =>
      obtain ⟨h15, hleg⟩ := hf f (by simp)
      obtain ⟨fuel, rfl⟩ : ∃ k, fuel = k + 1 := ⟨fuel - 1, by omega⟩
      simp only [treeSlots, fieldsLen] at hfuel
      simp only [treeSlots, encFields, List.append_assoc, readSlots]
      rw [readHeader_spec sub (by omega) (by omega)]
      simp only
      rw [hK f.id _ _ _ _ (hpre {f with req := q} List.mem_cons_self)]
      simp only [readSlot, if_true]
      have hread := fun r => readField_spec f.ty v _ (readVal_spec hl hr f.ty hleg v (hok.2.1 v rfl) r)
      have hrec := hrec (some (seenVal g f.ty v)) f.id h15 fuel (by omega)
      by_cases hd : ValAll p f.ty v
      · rw [(hread _).1 hd]
        simp only [Option.map_some]
        exact hrec.congr (by simp [SlotsReadable, hd])
      · rw [(hread _).2 hd]
        exact ⟨fun h => absurd (h.1 v rfl) hd, fun _ => rfl⟩

theorem readStruct_spec {T T' : Schema} (hT : Legal T) (hT' : Legal T') {limit : Nat} (hl : limit < 2 ^ 31)
    (C : (n : Nat) → Change (T n) (T' n)) (hC : ∀ n, (C n).Sound) (d n : Nat) (v : Struct T d n) (hv : Ok T limit d n v) (r : Bytes) :
    Two (Readable C d n v) (readStruct T' limit d n (encVal (.struct (tree T d n v)) ++ r)) (seen C d n v, r) := by
  induction d generalizing n r with
  | zero => exact nomatch v
  | succ d ih =>
    have := readSlots_spec hl (sub := tree T d) (good := Ok T limit d) (p := Readable C d) (g := seen C d) (dep := depth T d)
      (fun n w h r => ih n w h r) (fun n w D h1 h2 => tree_ok hT d n w D h1 h2) (tdepth_struct T d) (C n) (T' n) id [] (Ctx.refl _ _ _) (by simp)
      ((hT' n).1.imp fun h => by omega) (hC n) (fun f hf => ⟨((hT n).2 f hf).2.1, ((hT n).2 f hf).2.2⟩) v hv 0 (by omega)
      ((encVal (.struct (tree T (d + 1) n v)) ++ r).length + 1) (by
        have := fieldsLen_le 0 (tree T (d + 1) n v)
        simp only [encVal, List.length_append] at *
        simp only [tree] at this
        simp only [tree]
        omega) r
    have this : Two (SlotsReadable (depth T d) (Readable C d) (C n) v)
      (readSlots (readStruct T' limit d) limit (T' n) ((encVal (.struct (tree T (d + 1) n v)) ++ r).length + 1) 0 (noSlots _ (T' n))
        (encVal (.struct (tree T (d + 1) n v)) ++ r)) (rawSlots (seen C d) (C n) v, r) := this
    obtain ⟨f1, f2⟩ := finish_raw (seen C d) (C n) v
    simp only [readStruct]
    by_cases h1 : SlotsReadable (depth T d) (Readable C d) (C n) v
    · rw [this.1 h1]
      simp only
      refine ⟨fun h => ?_, fun h => ?_⟩
      · rw [f1 h.2]; rfl
      · rw [f2 (fun h2 => h ⟨h1, h2⟩)]
    · rw [this.2 h1]
      exact ⟨fun h => absurd h.1 h1, fun _ => rfl⟩

/-! ### The same schema -/

theorem lost_refl (fs : List Field) : (Change.refl fs).lost = [] := by
  induction fs with
  | nil => rfl
  | cons f fs ih => exact ih

theorem seenVal_id {W : Nat → Type} {g : (n : Nat) → W n → W n} {limit : Nat} {good : (n : Nat) → W n → Prop}
    (hg : ∀ n w, good n w → g n w = w) (t : Ty) (v : Val W t) (hv : ValOk limit good t v) : seenVal g t v = v := by
  induction t with
  | list t ih =>
    have : ∀ l : List (Val W t), (∀ x ∈ l, ValOk limit good t x) → l.map (seenVal g t) = l := fun l hl =>
      (List.map_congr_left (fun x hx => ih x (hl x hx))).trans (List.map_id' _)
    exact this v hv.2
  | set t ih =>
    have : ∀ l : List (Val W t), (∀ x ∈ l, ValOk limit good t x) → l.map (seenVal g t) = l := fun l hl =>
      (List.map_congr_left (fun x hx => ih x (hl x hx))).trans (List.map_id' _)
    exact this v hv.2
  | map k t ihk ihv =>
    have : ∀ l : List (Val W k × Val W t), (∀ x ∈ l, ValOk limit good k x.1 ∧ ValOk limit good t x.2) →
        l.map (fun e => (seenVal g k e.1, seenVal g t e.2)) = l := fun l hl =>
      (List.map_congr_left (fun x hx => by rw [ihk x.1 (hl x hx).1, ihv x.2 (hl x hx).2])).trans (List.map_id' _)
    exact this v hv.2.2
  | struct n => exact hg n v hv
  | _ => rfl

theorem seenSlots_refl {W : Nat → Type} {g : (n : Nat) → W n → W n} {limit : Nat} {good : (n : Nat) → W n → Prop}
    (hg : ∀ n w, good n w → g n w = w) (fs : List Field) (s : Slots W fs) (hs : SlotsOk limit good fs s) : seenSlots g (Change.refl fs) s = s := by
  induction fs with
  | nil => rfl
  | cons f fs ih =>
    obtain ⟨o, s⟩ := s
    obtain ⟨h1, h2, h3⟩ := hs
    simp only [Change.refl, seenSlots]
    rw [ih s h3]
    cases o with
    | some v => simp only [seenVal_id hg f.ty v (h2 v rfl)]; rfl
    | none => simp [absent, h1 rfl]; rfl

theorem readable_refl_slots {W : Nat → Type} {dep : (n : Nat) → W n → Nat} {p good : (n : Nat) → W n → Prop} {limit : Nat}
    (hp : ∀ n w, good n w → p n w) (fs : List Field) (s : Slots W fs) (hs : SlotsOk limit good fs s) :
    SlotsReadable dep p (Change.refl fs) s ∧ Given (Change.refl fs) s := by
  have hall : ∀ (t : Ty) (v : Val W t), ValOk limit good t v → ValAll p t v := by
    intro t
    induction t with
    | list t ih => intro v hv x hx; exact ih x (hv.2 x hx)
    | set t ih => intro v hv x hx; exact ih x (hv.2 x hx)
    | map k t ihk ihv => intro v hv x hx; exact ⟨ihk x.1 (hv.2.2 x hx).1, ihv x.2 (hv.2.2 x hx).2⟩
    | struct n => intro v hv; exact hp n v hv
    | _ => intro v hv; trivial
  induction fs with
  | nil => exact ⟨trivial, trivial⟩
  | cons f fs ih =>
    obtain ⟨o, s⟩ := s
    obtain ⟨h1, h2, h3⟩ := hs
    obtain ⟨i1, i2⟩ := ih s h3
    refine ⟨⟨fun v hv => hall f.ty v (h2 v hv), i1⟩, fun hq ho => ?_, i2⟩
    rw [h1 ho] at hq
    cases hq

theorem seen_refl {T : Schema} {limit : Nat} (d n : Nat) (v : Struct T d n) (hv : Ok T limit d n v) :
    seen (fun n => Change.refl (T n)) d n v = v := by
  induction d generalizing n with
  | zero => exact nomatch v
  | succ d ih => exact seenSlots_refl (fun n w h => ih n w h) (T n) v hv

theorem readable_refl {T : Schema} {limit : Nat} (d n : Nat) (v : Struct T d n) (hv : Ok T limit d n v) :
    Readable (fun n => Change.refl (T n)) d n v := by
  induction d generalizing n with
  | zero => exact nomatch v
  | succ d ih => exact readable_refl_slots (fun n w h => ih n w h) (T n) v hv

theorem readStruct_back {T : Schema} (hT : Legal T) {limit : Nat} (hl : limit < 2 ^ 31) (d n : Nat) (v : Struct T d n)
    (hv : Ok T limit d n v) (r : Bytes) : readStruct T limit d n (encVal (.struct (tree T d n v)) ++ r) = some (v, r) := by
  have := (readStruct_spec hT hT hl (fun n => Change.refl (T n)) (fun n f hf => by rw [lost_refl] at hf; cases hf) d n v hv r).1
    (readable_refl d n v hv)
  rw [seen_refl d n v hv] at this
  exact this

/-! ### A successful read is not affected by what follows -/

def ExtV {A : Type} (f : Bytes → Option (A × Bytes)) : Prop := ∀ bs a r s, f bs = some (a, r) → f (bs ++ s) = some (a, r ++ s)

theorem readN_ext {A : Type} {f : Bytes → Option (A × Bytes)} (hf : ExtV f) (n : Nat) : ExtV (readN f n) := by
  induction n with
  | zero => intro bs a r s h; simp only [readN, Option.some.injEq, Prod.mk.injEq] at h ⊢; simp [h]
  | succ n ih =>
    intro bs a r s h
    simp only [readN] at h ⊢
    cases h1 : f bs with
    | none => simp [h1] at h
    | some x =>
      obtain ⟨x, r1⟩ := x
      simp only [h1] at h
      simp only [hf bs x r1 s h1]
      cases h2 : readN f n r1 with
      | none => simp [h2] at h
      | some y =>
        obtain ⟨y, r2⟩ := y
        simp only [h2, Option.some.injEq, Prod.mk.injEq] at h
        simp only [ih r1 y r2 s h2, Option.some.injEq, Prod.mk.injEq]
        exact ⟨h.1, by rw [h.2]⟩

theorem readEntries_ext {K A : Type} (eq : K → K → Bool) {fk : Bytes → Option (K × Bytes)} {fv : Bytes → Option (A × Bytes)} (hk : ExtV fk)
    (hv : ExtV fv) (n : Nat) (m : List (K × A)) : ExtV (readEntries eq fk fv n m) := by
  induction n generalizing m with
  | zero => intro bs a r s h; simp only [readEntries, Option.some.injEq, Prod.mk.injEq] at h ⊢; simp [h]
  | succ n ih =>
    intro bs a r s h
    simp only [readEntries] at h ⊢
    cases h1 : fk bs with
    | none => simp [h1] at h
    | some x =>
      obtain ⟨x, r1⟩ := x
      simp only [h1] at h
      simp only [hk bs x r1 s h1]
      cases h2 : fv r1 with
      | none => simp [h2] at h
      | some y =>
        obtain ⟨y, r2⟩ := y
        simp only [h2] at h
        simp only [hv r1 y r2 s h2]
        exact ih _ r2 a r s h

theorem readHeader_ext (last : Int) : ExtV (readHeader last) := by
  intro bs a r s h
  unfold readHeader at h ⊢
  cases bs with
  | nil => simp [readFieldBegin, readByte] at h
  | cons b bs =>
    cases h1 : readFieldBegin last (b :: bs) with
    | none => simp [h1] at h
    | some x =>
      obtain ⟨x, r1⟩ := x
      simp only [h1] at h
      simp only [readFieldBegin_ext s h1]
      rcases x with _ | ⟨t, id⟩
      · simp only [Option.some.injEq, Prod.mk.injEq] at h ⊢
        exact ⟨h.1, by rw [h.2]⟩
      · simp only [Option.some.injEq, Prod.mk.injEq, List.cons_append, List.head?_cons] at h ⊢
        exact ⟨h.1, by rw [h.2]⟩

theorem map_ext {A B : Type} {f : Bytes → Option (A × Bytes)} (hf : ExtV f) (c : A → B) :
    ExtV fun bs => match f bs with
      | some (v, r) => some (c v, r)
      | none => none := by
  intro bs a r s h
  cases h1 : f bs with
  | none => simp [h1] at h
  | some x =>
    obtain ⟨x, r1⟩ := x
    simp only [h1, Option.some.injEq, Prod.mk.injEq] at h
    simp only [hf bs x r1 s h1, Option.some.injEq, Prod.mk.injEq]
    exact ⟨h.1, by rw [h.2]⟩

theorem bind_ext {A B : Type} {f : Bytes → Option (A × Bytes)} (hf : ExtV f) {k : A → Bytes → Option (B × Bytes)} (hk : ∀ a, ExtV (k a)) :
    ExtV fun bs => match f bs with
      | none => none
      | some (v, r) => k v r := by
  intro bs a r s h
  cases h1 : f bs with
  | none => simp [h1] at h
  | some x =>
    obtain ⟨x, r1⟩ := x
    simp only [h1] at h
    simp only [hf bs x r1 s h1]
    exact hk x r1 a r s h

theorem readDouble_ext : ExtV readDouble := by
  intro bs a r s h
  unfold readDouble at h ⊢
  by_cases hl : bs.length < 8
  · simp [hl] at h
  · rw [if_neg hl, Option.some.injEq, Prod.mk.injEq] at h
    rw [if_neg (by simp; omega), List.take_append_of_le_length (by omega), List.drop_append_of_le_length (by omega), h.1, h.2]

theorem extV_congr {A : Type} {f f' : Bytes → Option (A × Bytes)} (hf : ExtV f') (h : ∀ bs, f bs = f' bs) : ExtV f := by
  have : f = f' := funext h
  rw [this]; exact hf

theorem readVal_ext {W : Nat → Type} {rd : (n : Nat) → Bytes → Option (W n × Bytes)} (hr : ∀ n, ExtV (rd n)) (limit : Nat) (t : Ty) :
    ExtV (readVal rd limit t) := by
  induction t with
  | bool =>
    exact extV_congr (map_ext (fun bs a r s h => readByte_ext s h) (fun b => decide (b = 1))) fun bs => by
      simp only [readVal]; rcases readByte bs with _ | ⟨_, _⟩ <;> rfl
  | byte => exact fun bs a r s h => readByte_ext s h
  | i16 =>
    exact extV_congr (map_ext (fun bs a r s h => readI16_ext s h) (BitVec.ofInt 16)) fun bs => by
      simp only [readVal]; rcases readI16 bs with _ | ⟨_, _⟩ <;> rfl
  | i32 =>
    exact extV_congr (map_ext (fun bs a r s h => readVarint_ext s h) (fun v => BitVec.ofInt 32 (unzigzag (v % 2 ^ 32)))) fun bs => by
      simp only [readVal, readI32]; rcases readVarint bs with _ | ⟨_, _⟩ <;> rfl
  | i64 =>
    exact extV_congr (map_ext (fun bs a r s h => readVarint_ext s h) (fun v => BitVec.ofInt 64 (unzigzag (v % 2 ^ 64)))) fun bs => by
      simp only [readVal, readI64]; rcases readVarint bs with _ | ⟨_, _⟩ <;> rfl
  | double => exact readDouble_ext
  | str => exact fun bs a r s h => readString_ext s h
  | list t ih =>
    exact extV_congr (bind_ext (fun bs a r s h => readListBegin_ext s h) (k := fun x => readN (readVal rd limit t) x.2) fun x => readN_ext ih x.2) fun bs => by
      simp only [readVal]; rcases readListBegin limit bs with _ | ⟨_, _⟩ <;> rfl
  | set t ih =>
    exact extV_congr (bind_ext (fun bs a r s h => readListBegin_ext s h) (k := fun x => readN (readVal rd limit t) x.2) fun x => readN_ext ih x.2) fun bs => by
      simp only [readVal]; rcases readListBegin limit bs with _ | ⟨_, _⟩ <;> rfl
  | map k v ihk ihv =>
    exact extV_congr (bind_ext (fun bs a r s h => readMapBegin_ext s h)
      (k := fun x => readEntries (same k) (readVal rd limit k) (readVal rd limit v) x.2.2 []) fun x => readEntries_ext _ ihk ihv x.2.2 [])
      fun bs => by simp only [readVal]; rcases readMapBegin limit bs with _ | ⟨_, _⟩ <;> rfl
  | struct n => exact hr n

theorem readField_ext {W : Nat → Type} {rd : (n : Nat) → Bytes → Option (W n × Bytes)} (hr : ∀ n, ExtV (rd n)) (limit : Nat) (b : Bool) (t : Ty) :
    ExtV (readField rd limit b t) := by
  by_cases hb : t = .bool
  · subst hb
    intro bs a r s h
    simp only [readField] at h ⊢
    cases h; rfl
  · have e1 : readField rd limit b t = readVal rd limit t := by
      funext bs; cases t <;> first | rfl | exact absurd rfl hb
    rw [e1]
    exact readVal_ext hr limit t

theorem readSlot_ext {W : Nat → Type} {rd : (n : Nat) → Bytes → Option (W n × Bytes)} (hr : ∀ n, ExtV (rd n)) (limit : Nat) (id : Int) (t : TType)
    (b : Bool) (bs e : Bytes) (fs : List Field) (s : Slots W fs) :
    (∀ x r, readSlot rd limit id t b bs fs s = some (some (x, r)) → readSlot rd limit id t b (bs ++ e) fs s = some (some (x, r ++ e))) ∧
    (readSlot rd limit id t b bs fs s = some none → readSlot rd limit id t b (bs ++ e) fs s = some none) := by
  induction fs with
  | nil => exact ⟨fun x r h => by simp [readSlot] at h, fun _ => rfl⟩
  | cons f fs ih =>
    simp only [readSlot]
    by_cases hi : (f.id : Int) = id
    · rw [if_pos hi, if_pos hi]
      by_cases ht : f.ty.ttype = t
      · rw [if_pos ht, if_pos ht]
        cases h1 : readField rd limit b f.ty bs with
        | none => simp
        | some x =>
          obtain ⟨x, r1⟩ := x
          rw [readField_ext hr limit b f.ty bs x r1 e h1]
          exact ⟨fun y r h => by cases h; rfl, fun h => by cases h⟩
      · rw [if_neg ht, if_neg ht]
        exact ⟨fun x r h => by simp at h, fun _ => rfl⟩
    · rw [if_neg hi, if_neg hi]
      obtain ⟨i1, i2⟩ := ih s.2
      rcases h1 : readSlot rd limit id t b bs fs s.2 with _ | _ | ⟨x, r1⟩
      · simp
      · rw [i2 h1]; exact ⟨fun x r h => by simp at h, fun _ => rfl⟩
      · rw [i1 x r1 h1]
        exact ⟨fun y r h => by cases h; rfl, fun h => by cases h⟩

theorem readSlots_ext {W : Nat → Type} {rd : (n : Nat) → Bytes → Option (W n × Bytes)} (hr : ∀ n, ExtV (rd n)) (limit : Nat) (fs : List Field)
    (fuel fuel' : Nat) (hf : fuel ≤ fuel') (last : Int) (s : Slots W fs) (bs : Bytes) (x : Slots W fs) (r e : Bytes)
    (h : readSlots rd limit fs fuel last s bs = some (x, r)) : readSlots rd limit fs fuel' last s (bs ++ e) = some (x, r ++ e) := by
  induction fuel generalizing fuel' last s bs with
  | zero => simp [readSlots] at h
  | succ fuel ih =>
    obtain ⟨fuel', rfl⟩ : ∃ k, fuel' = k + 1 := ⟨fuel' - 1, by omega⟩
    simp only [readSlots] at h ⊢
    cases h1 : readHeader last bs with
    | none => simp [h1] at h
    | some y =>
      obtain ⟨y, r1⟩ := y
      rw [h1] at h
      rw [readHeader_ext last bs y r1 e h1]
      rcases y with _ | ⟨t, id, b⟩
      · simp only [Option.some.injEq, Prod.mk.injEq] at h ⊢
        exact ⟨h.1, by rw [h.2]⟩
      · simp only at h ⊢
        obtain ⟨i1, i2⟩ := readSlot_ext hr limit id t b r1 e fs s
        rcases h2 : readSlot rd limit id t b r1 fs s with _ | _ | ⟨z, r2⟩
        · simp [h2] at h
        · rw [h2] at h
          rw [i2 h2]
          simp only at h ⊢
          cases h3 : skip limit maxDepth (some t) (decide (t = .bool)) r1 with
          | none => simp [h3] at h
          | some r3 =>
            rw [h3] at h
            rw [skip_ext limit maxDepth (some t) _ r1 r3 e h3]
            exact ih fuel' (by omega) id s r3 h
        · rw [h2] at h
          rw [i1 z r2 h2]
          exact ih fuel' (by omega) id z r2 h

theorem readStruct_ext (T : Schema) (limit d n : Nat) : ExtV (readStruct T limit d n) := by
  induction d generalizing n with
  | zero => intro bs a r s h; simp [readStruct] at h
  | succ d ih =>
    intro bs a r s h
    simp only [readStruct] at h ⊢
    cases h1 : readSlots (readStruct T limit d) limit (T n) (bs.length + 1) 0 (noSlots _ (T n)) bs with
    | none => simp [h1] at h
    | some x =>
      obtain ⟨x, r1⟩ := x
      rw [h1] at h
      rw [readSlots_ext ih limit (T n) _ ((bs ++ s).length + 1) (by simp) 0 _ bs x r1 s h1]
      simp only at h ⊢
      cases h2 : finish (T n) x with
      | none => simp [h2] at h
      | some y =>
        rw [h2] at h
        cases h; rfl

theorem cut_refused {T : Schema} {limit d n : Nat} {v : Struct T d n} {p s : Bytes} (hs : s ≠ [])
    (h : readStruct T limit d n (p ++ s) = some (v, [])) : tDecode T limit d n p = none := by
  unfold tDecode
  cases h1 : readStruct T limit d n p with
  | none => rfl
  | some x =>
    obtain ⟨x, r⟩ := x
    rw [readStruct_ext T limit d n p x r s h1] at h
    simp only [Option.some.injEq, Prod.mk.injEq, List.append_eq_nil_iff] at h
    exact absurd h.2.2 hs

/-! ### An older reader -/

theorem valAll_depth {W : Nat → Type} {limit : Nat} {dep : (n : Nat) → W n → Nat} {good p : (n : Nat) → W n → Prop} {D : Nat}
    (h : ∀ n w, good n w → dep n w ≤ D → p n w) (t : Ty) (v : Val W t) (hv : ValOk limit good t v) (hd : depthVal dep t v ≤ D) : ValAll p t v := by
  have key : ∀ {A : Type} {f : A → Nat} {l : List A} {x : A}, x ∈ l → 1 + largest (l.map f) ≤ D → f x ≤ D := by
    intro A f l x hx hl
    have := le_largest (List.mem_map_of_mem (f := f) hx)
    omega
  induction t with
  | list t ih => exact fun x hx => ih x (hv.2 x hx) (key (f := depthVal dep t) hx hd)
  | set t ih => exact fun x hx => ih x (hv.2 x hx) (key (f := depthVal dep t) hx hd)
  | map k t ihk ihv =>
    intro x hx
    have := key (f := fun e : Val W k × Val W t => max (depthVal dep k e.1) (depthVal dep t e.2)) hx hd
    exact ⟨ihk x.1 (hv.2.2 x hx).1 (by omega), ihv x.2 (hv.2.2 x hx).2 (by omega)⟩
  | struct n => exact h n v hv hd
  | _ => trivial

theorem older_slots {W : Nat → Type} {limit : Nat} {dep : (n : Nat) → W n → Nat} {good p : (n : Nat) → W n → Prop}
    (h : ∀ n w, good n w → dep n w ≤ 64 → p n w) {fs gs : List Field} (c : Change fs gs) (hc : c.Older) (s : Slots W fs)
    (hs : SlotsOk limit good fs s) (hd : depthSlots dep fs s ≤ 64) : SlotsReadable dep p c s ∧ Given c s := by
  induction c with
  | nil => exact ⟨trivial, trivial⟩
  | added g c ih => exact hc.elim
  | dropped f c ih =>
    obtain ⟨o, s⟩ := s
    obtain ⟨_, _, h3⟩ := hs
    simp only [depthSlots] at hd
    obtain ⟨i1, i2⟩ := ih hc s h3 (by omega)
    refine ⟨⟨fun v hv => ?_, i1⟩, i2⟩
    simp only at hv
    subst hv
    simp only at hd
    omega
  | same f q c ih =>
    obtain ⟨o, s⟩ := s
    obtain ⟨h1, h2, h3⟩ := hs
    simp only [depthSlots] at hd
    obtain ⟨i1, i2⟩ := ih hc.2 s h3 (by omega)
    refine ⟨⟨fun v hv => ?_, i1⟩, fun hq ho => ?_, i2⟩
    · simp only at hv
      subst hv
      simp only at hd
      exact valAll_depth h f.ty v (h2 v rfl) (by omega)
    · rw [hc.1, h1 ho] at hq
      cases hq

theorem older_readable {T T' : Schema} {limit : Nat} (C : (n : Nat) → Change (T n) (T' n)) (hC : ∀ n, (C n).Older) (d n : Nat) (v : Struct T d n)
    (hv : Ok T limit d n v) (hd : depth T d n v ≤ 64) : Readable C d n v := by
  induction d generalizing n with
  | zero => exact nomatch v
  | succ d ih =>
    simp only [depth] at hd
    exact older_slots (fun n w h1 h2 => ih n w h1 h2) (C n) (hC n) v hv (by omega)

end Gofer.ThriftStruct
