import Verif.Proof.Proto

namespace Gofer.Proto
open Gofer.Spec.Proto

/-! ### records -/

/-- A record as bytes. -/
def chunk (r : Rec) : Bytes := putTag r.num r.wire.type ++ r.raw

def RecOk (r : Rec) : Prop :=
  1 ≤ r.num ∧ r.num < 2 ^ 29 ∧ r.wire.type < 8 ∧ ∀ z, takeValue r.num r.wire.type (r.raw ++ z) = some (r.wire, z)

theorem takeField_chunk {r : Rec} (h : RecOk r) (z : Bytes) : takeField (chunk r ++ z) = some (r, z) := by
  rw [chunk, List.append_assoc]
  exact takeField_of h.1 h.2.1 rfl h.2.2.1 h.2.2.2 z

theorem records_chunks (rs : List Rec) (h : ∀ r ∈ rs, RecOk r) (q : Bytes) :
    records ((rs.map chunk).flatten ++ q) = (records q).map (rs ++ ·) := by
  induction rs with
  | nil => simp
  | cons r rs ih =>
    rw [List.map_cons, List.flatten_cons, List.append_assoc, records_step (takeField_chunk (h r (by simp)) _),
      ih (fun r hr => h r (List.mem_cons_of_mem _ hr))]
    cases records q <;> simp

theorem records_chunks' (rs : List Rec) (h : ∀ r ∈ rs, RecOk r) : records ((rs.map chunk).flatten) = some rs := by
  have := records_chunks rs h []
  simpa [records_nil] using this

theorem records_ok {bs : Bytes} {rs : List Rec} (h : records bs = some rs) : ∀ r ∈ rs, RecOk r := by
  induction rs generalizing bs with
  | nil => simp
  | cons r rs ih =>
    rcases records_cases h with ⟨_, e⟩ | ⟨r', rest, rs', e1, e2, e3⟩
    · simp at e
    · simp only [List.cons.injEq] at e3
      obtain ⟨rfl, rfl⟩ := e3
      intro x hx
      rcases List.mem_cons.mp hx with rfl | hx
      · exact (takeField_some e1).1
      · exact ih e2 x hx

/-! ### what a field accepts -/

def accepts (f : Field) (w : Wire) : Bool :=
  match f.kind, w with
  | .varint _, .varint _ => true
  | .fixed64, .f64 _ => true
  | .fixed32, .f32 _ => true
  | .string, .bytes _ => true
  | .bytes, .bytes _ => true
  | .msg _, .bytes _ => true
  | .varint _, .bytes _ => isMany f
  | .fixed64, .bytes _ => isMany f
  | .fixed32, .bytes _ => isMany f
  | _, _ => false

theorem isMany_iff (f : Field) : isMany f = true ↔ f.many := by
  simp [isMany, Field.many]

theorem accepts_iff (f : Field) (w : Wire) : accepts f w = true ↔ f.Takes w.type := by
  have := isMany_iff f
  unfold accepts Field.Takes
  cases f.kind <;> cases w <;> simp [Wire.type, this]

theorem applyVal_unknown {W : Type} (sub : Nat → Option W → Bytes → Option W) (f : Field) (w : Wire)
    (vs : List (Val W)) (h : accepts f w = false) : applyVal sub f w vs = .unknown := by
  unfold accepts at h
  unfold applyVal applyPacked
  cases hk : f.kind <;> cases w <;> simp_all

theorem applyVal_known {W : Type} (sub : Nat → Option W → Bytes → Option W) (f : Field) (w : Wire)
    (vs : List (Val W)) (h : accepts f w = true) : applyVal sub f w vs ≠ .unknown := by
  unfold accepts at h
  unfold applyVal applyPacked
  cases hk : f.kind <;> cases w <;> simp_all <;> (try split) <;> (try split) <;> simp_all

def unknownTo (fs : List Field) (r : Rec) : Prop := ∀ f ∈ fs, f.num = r.num → accepts f r.wire = false

variable {W : Type} (sub : Nat → Option W → Bytes → Option W)

theorem applyAt_unknown (fs : List Field) (r : Rec) (h : unknownTo fs r) :
    ∀ vs : List (List (Val W)), applyAt sub fs vs r = .unknown := by
  induction fs with
  | nil => intro vs; cases vs <;> rfl
  | cons f fs ih =>
    intro vs
    cases vs with
    | nil => rfl
    | cons v vs =>
      rw [applyAt]
      split
      · rename_i e
        rw [applyVal_unknown sub f r.wire v (h f (by simp) e)]; rfl
      · rw [ih (fun g hg => h g (List.mem_cons_of_mem _ hg))]; rfl

theorem applyAll_unknown (fs : List Field) (rs : List Rec) (h : ∀ r ∈ rs, unknownTo fs r) :
    ∀ m : Body W, applyAll sub fs m rs = some ⟨m.fields, m.unknown ++ (rs.map chunk).flatten⟩ := by
  induction rs with
  | nil => intro m; simp [applyAll]
  | cons r rs ih =>
    intro m
    rw [applyAll, applyRec, applyAt_unknown sub fs r (h r (by simp))]
    simp only
    rw [ih (fun r hr => h r (List.mem_cons_of_mem _ hr))]
    simp [chunk]

theorem applyAll_append (fs : List Field) (rs rs' : List Rec) : ∀ m : Body W,
    applyAll sub fs m (rs ++ rs') = (applyAll sub fs m rs).bind (fun m => applyAll sub fs m rs') := by
  induction rs with
  | nil => intro m; rfl
  | cons r rs ih =>
    intro m
    rw [List.cons_append, applyAll, applyAll]
    cases applyRec sub fs m r with
    | none => rfl
    | some m' => exact ih m'

/-- The records of one field. -/
def foldVals (f : Field) : List (Val W) → List Rec → Option (List (Val W))
  | vs, [] => some vs
  | vs, r :: rs =>
    match applyVal sub f r.wire vs with
    | .set vs' => foldVals f vs' rs
    | _ => none

def consField (v : List (Val W)) (m : Body W) : Body W := ⟨v :: m.fields, m.unknown⟩

theorem applyAll_head (f : Field) (fs : List Field) (rs : List Rec) (h : ∀ r ∈ rs, f.num = r.num)
    (u : Bytes) (vs : List (List (Val W))) : ∀ v v' : List (Val W), foldVals sub f v rs = some v' →
    applyAll sub (f :: fs) ⟨v :: vs, u⟩ rs = some ⟨v' :: vs, u⟩ := by
  induction rs with
  | nil => intro v v' e; simp [foldVals] at e; simp [applyAll, e]
  | cons r rs ih =>
    intro v v' e
    rw [foldVals] at e
    split at e
    · rename_i w ew
      rw [applyAll, applyRec, applyAt, if_pos (h r (by simp)), ew]
      exact ih (fun r hr => h r (List.mem_cons_of_mem _ hr)) w v' e
    · simp at e

theorem applyAll_skip (f : Field) (fs : List Field) (rs : List Rec) (h : ∀ r ∈ rs, f.num ≠ r.num) (v : List (Val W)) :
    ∀ m : Body W, applyAll sub (f :: fs) (consField v m) rs = (applyAll sub fs m rs).map (consField v) := by
  induction rs with
  | nil => intro m; rfl
  | cons r rs ih =>
    intro m
    have ih := ih (fun r hr => h r (List.mem_cons_of_mem _ hr))
    rw [applyAll, applyAll, applyRec, applyRec, consField, applyAt, if_neg (h r (by simp))]
    cases applyAt sub fs m.fields r with
    | unknown => simpa [Upd.map, consField] using ih ⟨m.fields, m.unknown ++ (putTag r.num r.wire.type ++ r.raw)⟩
    | error => rfl
    | set vs => simpa [Upd.map, consField] using ih ⟨vs, m.unknown⟩

/-! ### the records of a message -/

/-- The value of a number on the wire. -/
def numWire (k : Kind) (x : BitVec 64) : Wire :=
  match k with
  | .varint v => .varint (toWire v x)
  | .fixed32 => .f32 x
  | .fixed64 => .f64 x
  | _ => .group

def recVal (full : Nat → W → Bytes) (f : Field) : Val W → Rec
  | .num x => ⟨f.num, numWire f.kind x, putNum f.kind x⟩
  | .str b => ⟨f.num, .bytes b, putVarint b.length ++ b⟩
  | .msg w =>
    match f.kind with
    | .msg t => ⟨f.num, .bytes (full t w), putVarint (full t w).length ++ full t w⟩
    | _ => ⟨f.num, .group, []⟩

def packed (f : Field) (vs : List (Val W)) : Bytes := (vs.map (fun v => putNum f.kind (numOf v))).flatten

def recsOf (full : Nat → W → Bytes) (f : Field) (vs : List (Val W)) : List Rec :=
  match f.card with
  | .packed => if vs.isEmpty then [] else [⟨f.num, .bytes (packed f vs), putVarint (packed f vs).length ++ packed f vs⟩]
  | _ => vs.map (recVal full f)

theorem recsOf_single (full : Nat → W → Bytes) (f : Field) (vs : List (Val W)) (h : f.card ≠ .packed) :
    recsOf full f vs = vs.map (recVal full f) := by
  unfold recsOf
  split
  · rename_i e; exact absurd e h
  · rfl

theorem recsOf_num (full : Nat → W → Bytes) (f : Field) (vs : List (Val W)) : ∀ r ∈ recsOf full f vs, f.num = r.num := by
  intro r hr
  unfold recsOf at hr
  split at hr
  · split at hr
    · simp at hr
    · simp at hr; subst hr; rfl
  · obtain ⟨v, _, rfl⟩ := List.mem_map.mp hr
    cases v with
    | num x => rfl
    | str b => rfl
    | msg w => simp only [recVal]; split <;> rfl

def allRecs (full : Nat → W → Bytes) : List Field → List (List (Val W)) → List Rec
  | f :: fs, v :: vs => recsOf full f v ++ allRecs full fs vs
  | _, _ => []

/-- `seq` of pieces that all succeed. -/
theorem seq_true (l : List (Bytes × Bool)) (h : ∀ p ∈ l, p.2 = true) : seq l = ((l.map (·.1)).flatten, true) := by
  induction l with
  | nil => rfl
  | cons p l ih =>
    obtain ⟨b, ok⟩ := p
    have : ok = true := h (b, ok) (by simp)
    subst this
    rw [seq, ih (fun p hp => h p (List.mem_cons_of_mem _ hp))]
    simp

theorem putVal_chunk (full : Nat → W → Bytes) {good : Nat → W → Prop} (f : Field) (v : Val W)
    (h : ValOk good f.kind v) :
    putVal false (fun t w => (full t w).length) (fun t w => (full t w, true)) f v = (chunk (recVal full f v), true) := by
  cases v with
  | num x => cases hk : f.kind <;> simp_all [ValOk, putVal, chunk, recVal, numWire, wireType, Wire.type]
  | str b => simp [putVal, chunk, recVal, Wire.type]
  | msg w => cases hk : f.kind <;> simp_all [ValOk, putVal, chunk, recVal, Wire.type]

theorem putField_chunk (full : Nat → W → Bytes) {good : Nat → W → Prop} (f : Field) (vs : List (Val W))
    (h : ValsOk good f vs) :
    putField false (fun t w => (full t w).length) (fun t w => (full t w, true)) f vs =
      (((recsOf full f vs).map chunk).flatten, true) := by
  by_cases hp : f.card = .packed
  · simp only [putField, recsOf, hp, putPacked]
    split
    · rfl
    · simp [chunk, Wire.type, packed]
  · rw [recsOf_single full f vs hp]
    have e : putField false (fun t w => (full t w).length) (fun t w => (full t w, true)) f vs =
        seq (vs.map (putVal false (fun t w => (full t w).length) (fun t w => (full t w, true)) f)) := by
      unfold putField
      split
      · rename_i h; exact absurd h hp
      · rfl
    rw [e, seq_true]
    · congr 1
      rw [List.map_map, List.map_map]
      congr 1
      apply List.map_congr_left
      intro v hv
      rw [Function.comp, Function.comp, putVal_chunk full f v (h.1 v hv)]
    · intro p hp
      obtain ⟨v, hv, rfl⟩ := List.mem_map.mp hp
      rw [putVal_chunk full f v (h.1 v hv)]

theorem putBody_chunk (full : Nat → W → Bytes) {good : Nat → W → Prop} (fs : List Field) (m : Body W)
    (h : List.Forall₂ (ValsOk good) fs m.fields) :
    putBody false (fun t w => (full t w).length) (fun t w => (full t w, true)) fs m =
      (((allRecs full fs m.fields).map chunk).flatten ++ m.unknown, true) := by
  obtain ⟨vs, u⟩ := m
  simp only at h
  unfold putBody
  simp only
  induction h with
  | nil => simp [allRecs, seq]
  | @cons f v fs vs hv _ ih =>
    rw [List.zipWith_cons_cons, List.cons_append, putField_chunk full f v hv, seq, ih]
    simp [allRecs]

/-! ### every record can be read -/

theorem takeScalar_num (k : Kind) (x : BitVec 64) (z : Bytes)
    (hk : (∃ v, k = .varint v) ∨ (k = .fixed32 ∧ x.toNat < 2 ^ 32) ∨ k = .fixed64) :
    takeScalar (wireType k) (putNum k x ++ z) = some (numWire k x, z) := by
  rcases hk with ⟨v, rfl⟩ | ⟨rfl, hx⟩ | rfl
  · simp [takeScalar, wireType, putNum, numWire, takeVarint_putVarint _ z (toWire v x).isLt]
  · have hl := putLE_length 4 x.toNat
    have e1 : (putLE 4 x.toNat ++ z).take 4 = putLE 4 x.toNat := by
      rw [List.take_append_of_le_length (by omega), List.take_of_length_le (by omega)]
    have e2 : (putLE 4 x.toNat ++ z).drop 4 = z := by
      rw [List.drop_append_of_le_length (by omega), List.drop_of_length_le (by omega)]; rfl
    simp only [takeScalar, wireType, putNum, numWire, List.length_append, hl, e1, e2,
      getLE_putLE 4 x.toNat (by omega)]
    simp
  · have hl := putLE_length 8 x.toNat
    have e1 : (putLE 8 x.toNat ++ z).take 8 = putLE 8 x.toNat := by
      rw [List.take_append_of_le_length (by omega), List.take_of_length_le (by omega)]
    have e2 : (putLE 8 x.toNat ++ z).drop 8 = z := by
      rw [List.drop_append_of_le_length (by omega), List.drop_of_length_le (by omega)]; rfl
    simp only [takeScalar, wireType, putNum, numWire, List.length_append, hl, e1, e2,
      getLE_putLE 8 x.toNat (by have := x.isLt; omega)]
    simp

theorem takeValue_bytes (num : Nat) (b z : Bytes) (h : b.length < 2 ^ 64) :
    takeValue num 2 (putVarint b.length ++ b ++ z) = some (.bytes b, z) := by
  have e1 : (b ++ z).take b.length = b := by simp
  have e2 : (b ++ z).drop b.length = z := by simp
  simp only [takeValue, takeScalar, List.append_assoc, takeVarint_putVarint _ (b ++ z) h, e1, e2, List.length_append]
  simp

theorem numeric {good : Nat → W → Prop} {k : Kind} {x : BitVec 64} (h : ValOk good k (.num x)) :
    (∃ v, k = .varint v) ∨ (k = .fixed32 ∧ x.toNat < 2 ^ 32) ∨ k = .fixed64 := by
  cases k <;> simp_all [ValOk]

theorem numWire_type {good : Nat → W → Prop} {k : Kind} {x : BitVec 64} (h : ValOk good k (.num x)) :
    (numWire k x).type = wireType k ∧ wireType k < 8 ∧ wireType k ≠ 3 := by
  cases k <;> simp_all [ValOk, numWire, wireType, Wire.type]

theorem recVal_ok (full : Nat → W → Bytes) {good : Nat → W → Prop} (f : Field) (hf : f.Legal) (v : Val W)
    (h : ValOk good f.kind v) (hs : (recVal full f v).raw.length < 2 ^ 64) : RecOk (recVal full f v) := by
  cases v with
  | num x =>
    obtain ⟨h1, h2, h3⟩ := numWire_type h
    refine ⟨hf.1, hf.2.1, ?_, ?_⟩
    · simp only [recVal, h1]; exact h2
    · intro z
      simp only [recVal, h1, takeValue, h3, if_false]
      exact takeScalar_num f.kind x z (numeric h)
  | str b =>
    refine ⟨hf.1, hf.2.1, by simp [recVal, Wire.type], fun z => ?_⟩
    simp only [recVal, List.length_append] at hs ⊢
    exact takeValue_bytes _ b z (by omega)
  | msg w =>
    cases hk : f.kind <;> simp only [hk, ValOk] at h
    rename_i t
    have e : recVal full f (.msg w) = ⟨f.num, .bytes (full t w), putVarint (full t w).length ++ full t w⟩ := by
      simp [recVal, hk]
    rw [e] at hs ⊢
    refine ⟨hf.1, hf.2.1, by simp [Wire.type], fun z => ?_⟩
    simp only [List.length_append] at hs ⊢
    exact takeValue_bytes _ _ z (by omega)

theorem recsOf_ok (full : Nat → W → Bytes) {good : Nat → W → Prop} (f : Field) (hf : f.Legal) (vs : List (Val W))
    (h : ValsOk good f vs) (hs : ∀ r ∈ recsOf full f vs, r.raw.length < 2 ^ 64) : ∀ r ∈ recsOf full f vs, RecOk r := by
  intro r hr
  have hs := hs r hr
  unfold recsOf at hr
  split at hr
  · split at hr
    · simp at hr
    · simp at hr
      subst hr
      refine ⟨hf.1, hf.2.1, by simp [Wire.type], fun z => ?_⟩
      simp only [List.length_append] at hs ⊢
      exact takeValue_bytes _ _ z (by omega)
  · obtain ⟨v, hv, rfl⟩ := List.mem_map.mp hr
    exact recVal_ok full f hf v (h.1 v hv) hs

theorem allRecs_ok (full : Nat → W → Bytes) {good : Nat → W → Prop} (fs : List Field) (hf : ∀ f ∈ fs, f.Legal)
    (ys : List (List (Val W))) (h : List.Forall₂ (ValsOk good) fs ys)
    (hs : ∀ r ∈ allRecs full fs ys, r.raw.length < 2 ^ 64) : ∀ r ∈ allRecs full fs ys, RecOk r := by
  induction h with
  | nil => simp [allRecs]
  | @cons f v fs vs hv _ ih =>
    intro r hr
    rcases List.mem_append.mp hr with hr | hr
    · exact recsOf_ok full f (hf f (by simp)) v hv (fun r hr => hs r (List.mem_append_left _ hr)) r hr
    · exact ih (fun f hf' => hf f (List.mem_cons_of_mem _ hf')) (fun r hr => hs r (List.mem_append_right _ hr)) r hr

theorem raw_le_chunks (rs : List Rec) : ∀ r ∈ rs, r.raw.length ≤ ((rs.map chunk).flatten).length := by
  induction rs with
  | nil => simp
  | cons r rs ih =>
    intro x hx
    simp only [List.map_cons, List.flatten_cons, List.length_append, chunk]
    rcases List.mem_cons.mp hx with rfl | hx
    · omega
    · have := ih x hx; omega

/-! ### reading the values of a field -/

/-- The field as another version of the schema has it. -/
def Compat (f g : Field) : Prop := g.num = f.num ∧ g.kind = f.kind ∧ (g.card = f.card ∨ (f.many ∧ g.many))

theorem Compat.refl (f : Field) : Compat f f := ⟨rfl, rfl, .inl rfl⟩

theorem Compat.symm {f g : Field} (h : Compat f g) : Compat g f :=
  ⟨h.1.symm, h.2.1.symm, h.2.2.imp (fun e => e.symm) (fun e => ⟨e.2, e.1⟩)⟩

theorem Compat.isMany {f g : Field} (h : Compat f g) : isMany g = isMany f := by
  rcases h.2.2 with e | ⟨e1, e2⟩
  · simp [Proto.isMany, e]
  · rw [(isMany_iff f).mpr e1, (isMany_iff g).mpr e2]

theorem Compat.accepts {f g : Field} (h : Compat f g) (w : Wire) : accepts g w = accepts f w := by
  unfold Proto.accepts
  rw [h.2.1, h.isMany]

theorem Compat.valsOk {f g : Field} (h : Compat f g) {good : Nat → W → Prop} {vs : List (Val W)}
    (hv : ValsOk good f vs) : ValsOk good g vs := by
  refine ⟨by rw [h.2.1]; exact hv.1, ?_⟩
  rcases h.2.2 with e | ⟨_, e2⟩
  · rw [e]; exact hv.2
  · rcases e2 with e | e <;> rw [e] <;> trivial

/-- The value read for a value written: messages are read anew. -/
def fresh (mg : Nat → Option W → W → W) (k : Kind) (v : Val W) : Val W :=
  match k, v with
  | .msg t, .msg w => .msg (mg t none w)
  | _, v => v

/-- The values of a field that had `x` after reading those that were written for `y`. -/
def join (mg : Nat → Option W → W → W) (g : Field) (x y : List (Val W)) : List (Val W) :=
  if isMany g then x ++ y.map (fresh mg g.kind)
  else match y with
    | [] => x
    | v :: _ =>
      match g.kind, v with
      | .msg t, .msg w => [.msg (mg t (held x) w)]
      | _, v => [v]

theorem unpackGo_packed {good : Nat → W → Prop} (k : Kind) (vs : List (Val W)) (h : ∀ v ∈ vs, ValOk good k v)
    (hk : ∀ v ∈ vs, ∃ x, v = .num x) : ∀ n, ((vs.map (fun v => putNum k (numOf v))).flatten).length ≤ n →
    unpackGo k n ((vs.map (fun v => putNum k (numOf v))).flatten) = some (vs.map numOf) := by
  induction vs with
  | nil => intro n _; cases n <;> rfl
  | cons v vs ih =>
    intro n hn
    obtain ⟨x, rfl⟩ := hk v (by simp)
    have hx := numeric (h (.num x) (by simp))
    have hok := h (.num x) (by simp)
    have h1 := takeScalar_num k x ((vs.map (fun v => putNum k (numOf v))).flatten) hx
    have en : numOf (.num x : Val W) = x := rfl
    simp only [List.map_cons, List.flatten_cons, en, List.length_append] at hn ⊢
    have hne : putNum k x ≠ [] := by
      rcases hx with ⟨v, rfl⟩ | ⟨rfl, _⟩ | rfl
      · exact putVarint_ne_nil _
      · simp [putNum, putLE]
      · simp [putNum, putLE]
    have hpos : 1 ≤ (putNum k x).length := by
      cases e : putNum k x with
      | nil => exact absurd e hne
      | cons _ _ => simp
    obtain ⟨n, rfl⟩ : ∃ m, n = m + 1 := ⟨n - 1, by omega⟩
    have ih := ih (fun v hv => h v (List.mem_cons_of_mem _ hv)) (fun v hv => hk v (List.mem_cons_of_mem _ hv)) n (by omega)
    generalize hb : putNum k x ++ (vs.map (fun v => putNum k (numOf v))).flatten = bs at h1 ⊢
    cases bs with
    | nil => simp at hb; exact absurd hb.1 hne
    | cons b bs =>
      simp only [unpackGo, h1]
      rcases hx with ⟨v, rfl⟩ | ⟨rfl, _⟩ | rfl
      · simp only [numWire, ih]
        simp only [ValOk] at hok
        simp [ofWire_toWire v x hok]
      · simp [numWire, ih]
      · simp [numWire, ih]

theorem fold_map (f g : Field) (full : Nat → W → Bytes) (F : Val W → Val W) (vs : List (Val W))
    (h : ∀ v ∈ vs, ∀ x : List (Val W), applyVal sub g (recVal full f v).wire x = .set (x ++ [F v])) :
    ∀ x, foldVals sub g x (vs.map (recVal full f)) = some (x ++ vs.map F) := by
  induction vs with
  | nil => intro x; simp [foldVals]
  | cons v vs ih =>
    intro x
    rw [List.map_cons, foldVals, h v (by simp)]
    simp only
    rw [ih (fun v hv => h v (List.mem_cons_of_mem _ hv))]
    simp

/-- What is wanted of the reader of messages. -/
def Reads (good : Nat → W → Prop) (al : Nat → W → Prop) (full : Nat → W → Bytes) (mg : Nat → Option W → W → W) : Prop :=
  ∀ t o w, good t w → (∀ w', o = some w' → al t w') → sub t o (full t w) = some (mg t o w)

theorem store_many (g : Field) (v : Val W) (x : List (Val W)) (h : isMany g = true) : store g v x = x ++ [v] := by
  rcases (isMany_iff g).mp h with e | e <;> simp [store, e]

theorem store_one (g : Field) (v : Val W) (x : List (Val W)) (h : isMany g = false)
    (hz : g.card = .implicit → ¬ IsZero v) : store g v x = [v] := by
  cases hc : g.card with
  | implicit =>
    have := hz hc
    cases v <;> simp_all [store, IsZero]
  | optional => simp [store, hc]
  | repeated => simp [isMany, hc] at h
  | packed => simp [isMany, hc] at h

theorem fold_recs {good al : Nat → W → Prop} {full : Nat → W → Bytes} {mg : Nat → Option W → W → W}
    (hsub : Reads sub good al full mg) (f g : Field) (hc : Compat f g) (hf : f.Legal) (x y : List (Val W))
    (hx : ∀ t, g.kind = .msg t → ∀ w, held x = some w → al t w)
    (hy : ValsOk good f y) (ht : ∀ b, f.kind = .string → .str b ∈ y → valid b = true) :
    foldVals sub g x (recsOf full f y) = some (join mg g x y) := by
  by_cases hm : isMany g = true
  · -- repeated
    have hmf : isMany f = true := by rw [← hc.isMany]; exact hm
    unfold join; rw [if_pos hm]
    by_cases hp : f.card = .packed
    · -- packed
      have hnum : ∀ v ∈ y, ∃ x, v = .num x := by
        intro v hv
        have h1 := hy.1 v hv
        have h2 := hf.2.2
        cases hk : f.kind <;> cases v <;> simp_all [ValOk]
      have hkind : ∀ v : Val W, fresh mg g.kind v = v := by
        intro v
        have h2 := hf.2.2
        rw [hc.2.1]
        cases hk : f.kind <;> simp_all [fresh]
      have e2 : y.map (fresh mg g.kind) = y := by
        conv => rhs; rw [← List.map_id y]
        exact List.map_congr_left (fun v _ => hkind v)
      rw [e2]
      simp only [recsOf, hp]
      cases y with
      | nil => simp [foldVals]
      | cons v vs =>
        have e3 := unpackGo_packed (good := good) f.kind (v :: vs) hy.1 hnum _ (Nat.le_refl _)
        have e4 : ((v :: vs).map numOf).map Val.num = v :: vs := by
          rw [List.map_map]
          conv => rhs; rw [← List.map_id (v :: vs)]
          apply List.map_congr_left
          intro a ha
          obtain ⟨x, rfl⟩ := hnum a ha
          rfl
        have e5 : applyVal sub g (.bytes (packed f (v :: vs))) x = .set (x ++ (v :: vs)) := by
          have hv1 := hy.1 v (by simp)
          obtain ⟨n, rfl⟩ := hnum v (by simp)
          have hk := numeric hv1
          unfold applyVal applyPacked
          rw [hc.2.1]
          unfold packed
          rcases hk with ⟨k, hk⟩ | ⟨hk, _⟩ | hk <;> simp only [hk, hm, if_true, unpack] <;> rw [hk] at e3 <;> rw [e3] <;> simp only [e4]
        simp only [List.isEmpty_cons, Bool.false_eq_true, if_false, foldVals, e5]
    · have e : recsOf full f y = y.map (recVal full f) := recsOf_single full f y hp
      rw [e]
      apply fold_map
      intro v hv x
      have h1 := hy.1 v hv
      cases v with
      | num n =>
        rcases numeric h1 with ⟨k, hk⟩ | ⟨hk, _⟩ | hk
        · rw [hk] at h1
          simp only [applyVal, hc.2.1, hk, recVal, numWire, store_many g _ x hm, fresh]
          rw [ofWire_toWire k n h1]
        · simp only [applyVal, hc.2.1, hk, recVal, numWire, store_many g _ x hm, fresh]
        · simp only [applyVal, hc.2.1, hk, recVal, numWire, store_many g _ x hm, fresh]
      | str b =>
        cases hk : f.kind <;> simp only [hk, ValOk] at h1
        · simp only [applyVal, hc.2.1, hk, recVal, store_many g _ x hm, fresh, ht b hk hv, if_true]
        · simp only [applyVal, hc.2.1, hk, recVal, store_many g _ x hm, fresh]
      | msg w =>
        cases hk : f.kind <;> simp only [hk, ValOk] at h1
        rename_i t
        have := hsub t none w h1 (by simp)
        simp only [applyVal, hc.2.1, hk, recVal, hm, if_true, this, fresh]
  · -- singular
    have hm : isMany g = false := by simpa using hm
    have hcard : g.card = f.card := by
      rcases hc.2.2 with e | ⟨_, e2⟩
      · exact e
      · rw [(isMany_iff g).mpr e2] at hm; simp at hm
    have hlen : y.length ≤ 1 := by
      have := hy.2
      cases hcf : f.card <;> rw [hcf] at this hcard
      · exact this.1
      · exact this
      · simp [isMany, hcard] at hm
      · simp [isMany, hcard] at hm
    have hnp : f.card ≠ .packed := by
      intro e
      rw [e] at hcard; simp [isMany, hcard] at hm
    have e : recsOf full f y = y.map (recVal full f) := recsOf_single full f y hnp
    unfold join
    rw [e, hm]
    simp only [Bool.false_eq_true, if_false]
    match y, hlen with
    | [], _ => simp [foldVals]
    | [v], _ =>
      have h1 := hy.1 v (by simp)
      have hz : g.card = .implicit → ¬ IsZero v := by
        intro e
        have := hy.2
        rw [← hcard, e] at this
        exact this.2 v (by simp)
      simp only [List.map_cons, List.map_nil, foldVals]
      cases v with
      | num n =>
        rcases numeric h1 with ⟨k, hk⟩ | ⟨hk, _⟩ | hk
        · rw [hk] at h1
          simp only [applyVal, hc.2.1, hk, recVal, numWire]
          rw [ofWire_toWire k n h1, store_one g _ x hm hz]
        · simp only [applyVal, hc.2.1, hk, recVal, numWire, store_one g _ x hm hz]
        · simp only [applyVal, hc.2.1, hk, recVal, numWire, store_one g _ x hm hz]
      | str b =>
        cases hk : f.kind <;> simp only [hk, ValOk] at h1
        · simp only [applyVal, hc.2.1, hk, recVal, store_one g _ x hm hz, ht b hk (by simp), if_true]
        · simp only [applyVal, hc.2.1, hk, recVal, store_one g _ x hm hz]
      | msg w =>
        cases hk : f.kind <;> simp only [hk, ValOk] at h1
        rename_i t
        have := hsub t (held x) w h1 (fun w' e => hx t (by rw [hc.2.1, hk]) w' e)
        simp only [applyVal, hc.2.1, hk, recVal, hm, Bool.false_eq_true, if_false, this]

end Gofer.Proto
