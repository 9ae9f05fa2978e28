import Verif.Spec.ProtoTypes
import Verif.Proof.ProtoBad

/-!
# Lemmas: every varint field read and written as `uint64`
-/
namespace Gofer.Proto
open Gofer.Spec.Proto

variable {W : Type}

/-! ### Writing -/

/-- The field with the plainest type. -/
def upF (f : Field) : Field :=
  match f.kind with
  | .varint _ => { f with kind := .varint .uint64 }
  | _ => f

def upT (T : Schema) : Schema := fun t => (T t).map upF

def upVal (sub : Nat → W → W) : Kind → Val W → Val W
  | .varint k, .num x => .num (toWire k x)
  | .msg t, .msg w => .msg (sub t w)
  | _, v => v

def upFields (sub : Nat → W → W) : List Field → List (List (Val W)) → List (List (Val W))
  | f :: fs, vs :: vss => vs.map (upVal sub f.kind) :: upFields sub fs vss
  | _, _ => []

def upM (T : Schema) : (d : Nat) → Nat → Msg d → Msg d
  | 0, t, m => (⟨upFields (fun _ e => e) (T t) (Body.fields m), Body.unknown m⟩ : Body Empty)
  | d + 1, t, m => (⟨upFields (upM T d) (T t) (Body.fields m), Body.unknown m⟩ : Body (Msg d))

theorem upF_num (f : Field) : (upF f).num = f.num := by unfold upF; split <;> rfl
theorem upF_card (f : Field) : (upF f).card = f.card := by unfold upF; split <;> rfl
theorem upF_wire (f : Field) : wireType (upF f).kind = wireType f.kind := by
  unfold upF; split <;> simp_all [wireType]

theorem upF_varint {f : Field} {k : VarKind} (h : f.kind = .varint k) : (upF f).kind = .varint .uint64 := by
  unfold upF; simp [h]

theorem upF_other {f : Field} (h : ∀ k, f.kind ≠ .varint k) : upF f = f := by
  unfold upF
  split
  · rename_i k hk; exact absurd hk (h k)
  · rfl

theorem toWire_zero (k : VarKind) : toWire k 0 = 0 := by cases k <;> decide
theorem ofWire_zero (k : VarKind) : ofWire k 0 = 0 := by cases k <;> decide

theorem putNum_up (sub : Nat → W → W) (f : Field) (v : Val W) :
    putNum (upF f).kind (numOf (upVal sub f.kind v)) = putNum f.kind (numOf v) := by
  cases hk : f.kind with
  | varint k =>
    rw [upF_varint hk]
    cases v with
    | num x => rfl
    | str b => show putVarint (toWire .uint64 0).toNat = putVarint (toWire k 0).toNat; rw [toWire_zero, toWire_zero]
    | msg w => show putVarint (toWire .uint64 0).toNat = putVarint (toWire k 0).toNat; rw [toWire_zero, toWire_zero]
  | msg t => rw [upF_other (by simp [hk]), hk]; cases v <;> rfl
  | _ => rw [upF_other (by simp [hk]), hk]; cases v <;> rfl

theorem putVal_up (check : Bool) (sub : Nat → W → W) (size size' : Nat → W → Nat) (enc enc' : Nat → W → Bytes × Bool)
    (h1 : ∀ t w, size' t (sub t w) = size t w) (h2 : ∀ t w, enc' t (sub t w) = enc t w) (f : Field) (v : Val W) :
    putVal check size' enc' (upF f) (upVal sub f.kind v) = putVal check size enc f v := by
  cases hk : f.kind with
  | varint k =>
    cases v with
    | num x => simp only [upVal, putVal, upF_num, upF_varint hk, hk, wireType]; rfl
    | str b => simp only [upVal, putVal, upF_num, upF_varint hk, hk]; rfl
    | msg w => simp only [upVal, putVal, upF_varint hk, hk]
  | msg t =>
    rw [upF_other (by simp [hk])]
    cases v with
    | msg w => simp only [upVal, putVal, hk, h1, h2]
    | _ => rfl
  | _ => rw [upF_other (by simp [hk])]; cases v <;> simp only [upVal, putVal, hk]

theorem putField_up (check : Bool) (sub : Nat → W → W) (size size' : Nat → W → Nat) (enc enc' : Nat → W → Bytes × Bool)
    (h1 : ∀ t w, size' t (sub t w) = size t w) (h2 : ∀ t w, enc' t (sub t w) = enc t w) (f : Field) (vs : List (Val W)) :
    putField check size' enc' (upF f) (vs.map (upVal sub f.kind)) = putField check size enc f vs := by
  have e1 : (vs.map (upVal sub f.kind)).map (putVal check size' enc' (upF f)) = vs.map (putVal check size enc f) := by
    rw [List.map_map]
    exact List.map_congr_left fun v _ => putVal_up check sub size size' enc enc' h1 h2 f v
  have e2 : putPacked (upF f) (vs.map (upVal sub f.kind)) = putPacked f vs := by
    unfold putPacked
    rw [List.map_map, upF_num]
    have : (fun v => putNum (upF f).kind (numOf v)) ∘ upVal sub f.kind = fun v : Val W => putNum f.kind (numOf v) := by
      funext v; exact putNum_up sub f v
    rw [this]
    simp
  unfold putField
  rw [upF_card, e1, e2]

theorem putFields_up (check : Bool) (sub : Nat → W → W) (size size' : Nat → W → Nat) (enc enc' : Nat → W → Bytes × Bool)
    (h1 : ∀ t w, size' t (sub t w) = size t w) (h2 : ∀ t w, enc' t (sub t w) = enc t w) (fs : List Field) :
    ∀ vss : List (List (Val W)), List.zipWith (putField check size' enc') (fs.map upF) (upFields sub fs vss) =
      List.zipWith (putField check size enc) fs vss := by
  induction fs with
  | nil => intro vss; simp
  | cons f fs ih =>
    intro vss
    cases vss with
    | nil => simp [upFields]
    | cons vs vss =>
      simp only [upFields, List.map_cons, List.zipWith_cons_cons, ih,
        putField_up check sub size size' enc enc' h1 h2]

theorem enc_up (T : Schema) (d : Nat) : ∀ (check : Bool) (t : Nat) (m : Msg d),
    enc (upT T) d check t (upM T d t m) = enc T d check t m := by
  induction d with
  | zero =>
    intro check t m
    show putBody _ _ _ _ _ = putBody _ _ _ _ _
    unfold putBody
    exact congrArg (fun l => seq (l ++ [(Body.unknown m, true)]))
      (putFields_up check (fun _ e => e) _ _ _ _ (fun _ e => nomatch e) (fun _ e => nomatch e) (T t) (Body.fields m))
  | succ d ih =>
    intro check t m
    show putBody _ _ _ _ _ = putBody _ _ _ _ _
    unfold putBody
    exact congrArg (fun l => seq (l ++ [(Body.unknown m, true)]))
      (putFields_up check (upM T d) _ _ _ _ (fun t w => by rw [ih]) (fun t w => ih check t w) (T t) (Body.fields m))

/-! ### The plain message is a message -/

theorem legal_up (T : Schema) (hT : Legal T) : Legal (upT T) := by
  intro t
  obtain ⟨h1, h2⟩ := hT t
  refine ⟨?_, ?_⟩
  · show ((T t).map upF).Pairwise _
    rw [List.pairwise_map]
    exact h1.imp (by intro a b h; rw [upF_num, upF_num]; exact h)
  · intro f hf
    obtain ⟨g, hg, rfl⟩ := List.mem_map.1 hf
    obtain ⟨a, b, c⟩ := h2 g hg
    refine ⟨by rw [upF_num]; exact a, by rw [upF_num]; exact b, ?_⟩
    cases hk : g.kind with
    | varint k => rw [upF_varint hk]; trivial
    | _ => rw [upF_other (by simp [hk])]; exact c

theorem takes_up (f : Field) (wt : Nat) : (upF f).Takes wt ↔ f.Takes wt := by
  cases hk : f.kind with
  | varint k => simp only [Field.Takes, upF_varint hk, hk, Field.many, upF_card]
  | _ => rw [upF_other (by simp [hk])]

theorem stranger_up (fs : List Field) (b : Bytes) (h : Stranger fs b) : Stranger (fs.map upF) b := by
  obtain ⟨num, wt, tag, p, h1, h2, h3, h4, h5, h6, h7⟩ := h
  refine ⟨num, wt, tag, p, h1, h2, h3, h4, h5, ?_, h7⟩
  intro f hf hn
  obtain ⟨g, hg, rfl⟩ := List.mem_map.1 hf
  rw [takes_up]
  exact h6 g hg (by rw [← hn, upF_num])

theorem toWire_nonzero (k : VarKind) (x : BitVec 64) (h : k.Fits x) (hx : x ≠ 0) : toWire k x ≠ 0 := by
  intro e
  have := ofWire_toWire k x h
  rw [e, ofWire_zero] at this
  exact hx this.symm

theorem valsOk_up (good good' : Nat → W → Prop) (sub : Nat → W → W) (hg : ∀ t w, good t w → good' t (sub t w))
    (f : Field) (vs : List (Val W)) (h : ValsOk good f vs) : ValsOk good' (upF f) (vs.map (upVal sub f.kind)) := by
  obtain ⟨h1, h2⟩ := h
  refine ⟨?_, ?_⟩
  · intro v hv
    obtain ⟨w, hw, rfl⟩ := List.mem_map.1 hv
    have := h1 w hw
    cases hk : f.kind with
    | varint k =>
      rw [upF_varint hk]
      rw [hk] at this
      cases w <;> simp_all [upVal, ValOk, VarKind.Fits]
    | msg t =>
      rw [upF_other (by simp [hk]), hk]
      rw [hk] at this
      cases w <;> simp_all [upVal, ValOk]
    | _ =>
      rw [upF_other (by simp [hk]), hk]
      rw [hk] at this
      cases w <;> simp_all [upVal, ValOk]
  · rw [upF_card]
    cases hc : f.card with
    | implicit =>
      rw [hc] at h2
      refine ⟨by simpa using h2.1, ?_⟩
      intro v hv
      obtain ⟨w, hw, rfl⟩ := List.mem_map.1 hv
      have hz := h2.2 w hw
      have ho := h1 w hw
      cases hk : f.kind with
      | varint k =>
        rw [hk] at ho
        cases w with
        | num x => exact toWire_nonzero k x ho hz
        | _ => exact hz
      | msg t => cases w <;> first | exact hz | simp [upVal, IsZero]
      | _ => cases w <;> exact hz
    | optional => rw [hc] at h2; simpa using h2
    | _ => trivial

theorem fieldsOk_up (good good' : Nat → W → Prop) (sub : Nat → W → W) (hg : ∀ t w, good t w → good' t (sub t w))
    {fs : List Field} {vss : List (List (Val W))} (h : List.Forall₂ (ValsOk good) fs vss) :
    List.Forall₂ (ValsOk good') (fs.map upF) (upFields sub fs vss) := by
  induction h with
  | nil => exact .nil
  | cons h _ ih => exact .cons (valsOk_up good good' sub hg _ _ h) ih

theorem ok_up (T : Schema) (d : Nat) : ∀ t (m : Msg d), Ok T d t m → Ok (upT T) d t (upM T d t m) := by
  induction d with
  | zero =>
    rintro t m ⟨h, us, h1, h2⟩
    exact ⟨fieldsOk_up _ _ _ (fun _ e => nomatch e) h, us, fun u hu => stranger_up _ _ (h1 u hu), h2⟩
  | succ d ih =>
    rintro t m ⟨h, us, h1, h2⟩
    exact ⟨fieldsOk_up _ _ _ (ih) h, us, fun u hu => stranger_up _ _ (h1 u hu), h2⟩

theorem bodyTexts_up (tx tx' : Nat → W → Prop) (sub : Nat → W → W) (hg : ∀ t w, tx t w → tx' t (sub t w))
    (fs : List Field) : ∀ (vss : List (List (Val W))) (u u' : Bytes), BodyTexts tx fs ⟨vss, u⟩ →
    BodyTexts tx' (fs.map upF) ⟨upFields sub fs vss, u'⟩ := by
  induction fs with
  | nil => intro vss u u' _ p hp; simp at hp
  | cons f fs ih =>
    intro vss u u' h p hp
    cases vss with
    | nil => simp [upFields] at hp
    | cons vs vss =>
      simp only [upFields, List.map_cons, List.zip_cons_cons, List.mem_cons] at hp
      rcases hp with rfl | hp
      · intro v hv
        obtain ⟨w, hw, rfl⟩ := List.mem_map.1 hv
        have h0 := h (f, vs) (by simp) w hw
        cases hk : f.kind with
        | varint k => simp only [upF_varint hk]
        | msg t =>
          rw [hk] at h0
          simp only [upF_other (f := f) (by simp [hk]), hk]
          cases w with
          | msg w => exact hg t w h0
          | _ => trivial
        | string =>
          rw [hk] at h0
          simp only [upF_other (f := f) (by simp [hk]), hk]
          cases w with
          | str b => exact h0
          | _ => trivial
        | _ =>
          simp only [upF_other (f := f) (by simp [hk]), hk]
      · exact ih vss u u' (fun p hp => h p (by simp [hp])) p hp

theorem texts_up (T : Schema) (d : Nat) : ∀ t (m : Msg d), Texts T d t m → Texts (upT T) d t (upM T d t m) := by
  induction d with
  | zero => intro t m h; exact bodyTexts_up _ _ _ (fun _ e => nomatch e) (T t) (Body.fields m) (Body.unknown m) _ h
  | succ d ih => intro t m h; exact bodyTexts_up _ _ _ ih (T t) (Body.fields m) (Body.unknown m) _ h

/-! ### Reading -/

def downVal (sub : Nat → W → W) : Kind → Val W → Val W
  | .varint k, .num x => .num (ofWire k x)
  | .msg t, .msg w => .msg (sub t w)
  | _, v => v

/-- A field read with its type after one read as `uint64`. -/
def downVals (sub : Nat → W → W) (f : Field) (vs : List (Val W)) : List (Val W) :=
  (vs.map (downVal sub f.kind)).filter (visible f)

def downFields (sub : Nat → W → W) : List Field → List (List (Val W)) → List (List (Val W))
  | f :: fs, vs :: vss => downVals sub f vs :: downFields sub fs vss
  | _, _ => []

def downB (sub : Nat → W → W) (fs : List Field) (m : Body W) : Body W := ⟨downFields sub fs m.fields, m.unknown⟩

def downM (T : Schema) : (d : Nat) → Nat → Msg d → Msg d
  | 0, t, m => (downB (fun _ e => e) (T t) m : Body Empty)
  | d + 1, t, m => (downB (downM T d) (T t) m : Body (Msg d))

theorem unpackGo_down (k : VarKind) (f : Nat) : ∀ bs, unpackGo (.varint k) f bs =
    (unpackGo (.varint .uint64) f bs).map (·.map (ofWire k)) := by
  induction f with
  | zero => intro bs; cases bs <;> simp [unpackGo]
  | succ f ih =>
    intro bs
    cases bs with
    | nil => simp [unpackGo]
    | cons b bs =>
      simp only [unpackGo, wireType, takeScalar, if_true]
      cases takeVarint (b :: bs) with
      | none => rfl
      | some p =>
        simp only [ih p.2]
        cases unpackGo (.varint .uint64) f p.2 <;> simp [ofWire]

theorem visible_num_ne (f : Field) {x : BitVec 64} (h : x ≠ 0) : visible f (.num x : Val W) = true := by
  simp only [visible, bne_iff_ne.2 h, Bool.or_true]

theorem visible_num_zero {f : Field} (h : f.card = .implicit) : visible f (.num 0 : Val W) = false := by
  rw [visible, h]; rfl

theorem visible_present {f : Field} (h : f.card ≠ .implicit) (v : Val W) : visible f v = true := by
  cases v <;> simp [visible, h]

theorem filter_one {A : Type} {p : A → Bool} {a : A} (h : p a = true) : [a].filter p = [a] := by
  rw [List.filter_cons, if_pos h]; rfl

theorem filter_none {A : Type} {p : A → Bool} {a : A} (h : p a = false) : [a].filter p = [] := by
  rw [List.filter_cons, if_neg (by simp [h])]; rfl

theorem visible_many {f : Field} (h : isMany f = true) (v : Val W) : visible f v = true := by
  have : (f.card == .implicit) = false := by
    unfold isMany at h
    cases hc : f.card <;> simp_all
  cases v <;> simp [visible, this]

theorem downVals_many (sub : Nat → W → W) {f : Field} (h : isMany f = true) (vs : List (Val W)) :
    downVals sub f vs = vs.map (downVal sub f.kind) := by
  unfold downVals
  rw [List.filter_eq_self]
  exact fun v _ => visible_many h v

theorem isMany_up (f : Field) : isMany (upF f) = isMany f := by unfold isMany; rw [upF_card]

theorem store_down (sub : Nat → W → W) {f : Field} {k : VarKind} (hk : f.kind = .varint k) (v : BitVec 64)
    (vs : List (Val W)) :
    store f (.num (ofWire k v)) (downVals sub f vs) = downVals sub f (store (upF f) (.num v) vs) := by
  unfold store
  rw [upF_card]
  cases hc : f.card with
  | implicit =>
    show (if ofWire k v = 0 then [] else [Val.num (ofWire k v)]) = downVals sub f (if v = 0 then [] else [.num v])
    by_cases h0 : v = 0
    · rw [if_pos h0, if_pos (by rw [h0, ofWire_zero])]; rfl
    · rw [if_neg h0]
      have e : downVals sub f [.num v] = [Val.num (ofWire k v)].filter (visible f) := by
        unfold downVals; rw [hk]; rfl
      rw [e]
      by_cases h1 : ofWire k v = 0
      · rw [if_pos h1, h1, filter_none (visible_num_zero hc)]
      · rw [if_neg h1, filter_one (visible_num_ne f h1)]
  | optional =>
    have e : downVals sub f [.num v] = [Val.num (ofWire k v)].filter (visible f) := by
      unfold downVals; rw [hk]; rfl
    show [Val.num (ofWire k v)] = downVals sub f [.num v]
    rw [e, filter_one (visible_present (by simp [hc]) _)]
  | repeated =>
    have hm : isMany f = true := by simp [isMany, hc]
    simp [downVals_many sub hm, downVal, hk]
  | packed =>
    have hm : isMany f = true := by simp [isMany, hc]
    simp [downVals_many sub hm, downVal, hk]

theorem downVals_plain (sub : Nat → W → W) {f : Field} (hv : ∀ k, f.kind ≠ .varint k) (hm : ∀ t, f.kind ≠ .msg t)
    (vs : List (Val W)) : downVals sub f vs = vs.filter (visible f) := by
  unfold downVals
  congr 1
  conv_rhs => rw [← List.map_id vs]
  refine List.map_congr_left fun v _ => ?_
  cases hk : f.kind with
  | varint k => exact absurd hk (hv k)
  | msg t => exact absurd hk (hm t)
  | _ => rfl

theorem store_plain (sub : Nat → W → W) {f : Field} (hv : ∀ k, f.kind ≠ .varint k) (hm : ∀ t, f.kind ≠ .msg t)
    (v : Val W) (vs : List (Val W)) : store f v (downVals sub f vs) = downVals sub f (store f v vs) := by
  rw [downVals_plain sub hv hm, downVals_plain sub hv hm]
  unfold store
  cases hc : f.card with
  | implicit =>
    cases v with
    | num x =>
      show (if x = 0 then [] else [Val.num x]) = List.filter (visible f) (if x = 0 then [] else [Val.num x])
      by_cases h : x = 0
      · rw [if_pos h]; rfl
      · rw [if_neg h, filter_one (visible_num_ne f h)]
    | str b =>
      show (if b = [] then [] else [Val.str b]) = List.filter (visible f) (if b = [] then [] else [Val.str b])
      by_cases h : b = []
      · rw [if_pos h]; rfl
      · rw [if_neg h, filter_one rfl]
    | msg w => exact (filter_one rfl).symm
  | optional => exact (filter_one (visible_present (by simp [hc]) _)).symm
  | repeated =>
    have hmm : isMany f = true := by simp [isMany, hc]
    simp [visible_many hmm]
  | packed =>
    have hmm : isMany f = true := by simp [isMany, hc]
    simp [visible_many hmm]

theorem applyPacked_down (sub : Nat → W → W) {f : Field} {k : VarKind} (hk : f.kind = .varint k) (b : Bytes)
    (vs : List (Val W)) : applyPacked f (.varint k) b (downVals sub f vs) =
      (applyPacked (upF f) (.varint .uint64) b vs).map (downVals sub f) := by
  unfold applyPacked
  rw [isMany_up]
  cases hm : isMany f with
  | false => rfl
  | true =>
    simp only [if_true, unpack, unpackGo_down k]
    cases unpackGo (.varint .uint64) b.length b with
    | none => rfl
    | some xs =>
      simp only [Option.map_some, Upd.map]
      rw [downVals_many sub hm, downVals_many sub hm]
      simp [downVal, hk]

theorem applyPacked_plain (sub : Nat → W → W) {f : Field} (hv : ∀ k, f.kind ≠ .varint k) (hm : ∀ t, f.kind ≠ .msg t)
    (k : Kind) (b : Bytes) (vs : List (Val W)) : applyPacked f k b (downVals sub f vs) =
      (applyPacked f k b vs).map (downVals sub f) := by
  unfold applyPacked
  cases hmm : isMany f with
  | false => rfl
  | true =>
    simp only [if_true]
    cases unpack k b with
    | none => rfl
    | some xs =>
      simp only [Upd.map]
      rw [downVals_plain sub hv hm, downVals_plain sub hv hm, List.filter_append]
      congr 2
      symm
      rw [List.filter_eq_self]
      exact fun v _ => visible_many hmm v

theorem held_down (sub : Nat → W → W) {f : Field} {t : Nat} (hk : f.kind = .msg t) (hm : f.card ≠ .implicit) (vs : List (Val W)) :
    held (downVals sub f vs) = (held vs).map (sub t) := by
  have e : downVals sub f vs = vs.map (downVal sub (.msg t)) := by
    unfold downVals
    rw [hk, List.filter_eq_self]
    intro v _
    cases v <;> simp [visible, hm]
  rw [e]
  match vs with
  | [] => rfl
  | [.num x] => rfl
  | [.str b] => rfl
  | [.msg w] => rfl
  | _ :: _ :: _ => simp [held]

theorem applyVal_down (sub' : Nat → Option W → Bytes → Option W) (subU : Nat → Option W → Bytes → Option W)
    (sub : Nat → W → W) (h : ∀ t o b, sub' t (o.map (sub t)) b = (subU t o b).map (sub t)) (f : Field) (hf : f.Legal)
    (w : Wire) (vs : List (Val W)) :
    applyVal sub' f w (downVals sub f vs) = (applyVal subU (upF f) w vs).map (downVals sub f) := by
  cases hk : f.kind with
  | varint k =>
    unfold applyVal
    rw [upF_varint hk, hk]
    cases w with
    | varint v => exact congrArg Upd.set (store_down sub hk v vs)
    | bytes b => exact applyPacked_down sub hk b vs
    | _ => rfl
  | msg t =>
    have hc : f.card ≠ .implicit := by
      have := hf.2.2
      rw [hk] at this
      rintro e
      rw [e] at this
      simp at this
    unfold applyVal
    rw [upF_other (by simp [hk]), hk]
    cases w with
    | bytes b =>
      simp only
      cases hm : isMany f with
      | true =>
        simp only [if_true]
        have := h t none b
        rw [Option.map_none] at this
        rw [this]
        cases subU t none b with
        | none => rfl
        | some w => simp [Upd.map, downVals_many sub hm, hk, downVal]
      | false =>
        simp only [Bool.false_eq_true, if_false]
        rw [held_down sub hk hc, h]
        cases subU t (held vs) b with
        | none => rfl
        | some w =>
          simp only [Option.map_some, Upd.map]
          unfold downVals
          rw [hk]
          exact congrArg Upd.set (filter_one rfl).symm
    | _ => rfl
  | string =>
    have hv : ∀ k, f.kind ≠ .varint k := by simp [hk]
    have hm : ∀ t, f.kind ≠ .msg t := by simp [hk]
    unfold applyVal
    rw [upF_other hv, hk]
    cases w with
    | bytes b =>
      simp only
      split
      · exact congrArg Upd.set (store_plain sub hv hm _ vs)
      · rfl
    | _ => rfl
  | bytes =>
    have hv : ∀ k, f.kind ≠ .varint k := by simp [hk]
    have hm : ∀ t, f.kind ≠ .msg t := by simp [hk]
    unfold applyVal
    rw [upF_other hv, hk]
    cases w with
    | bytes b => exact congrArg Upd.set (store_plain sub hv hm _ vs)
    | _ => rfl
  | fixed32 =>
    have hv : ∀ k, f.kind ≠ .varint k := by simp [hk]
    have hm : ∀ t, f.kind ≠ .msg t := by simp [hk]
    unfold applyVal
    rw [upF_other hv, hk]
    cases w with
    | bytes b => exact applyPacked_plain sub hv hm _ b vs
    | f32 v => exact congrArg Upd.set (store_plain sub hv hm _ vs)
    | _ => rfl
  | fixed64 =>
    have hv : ∀ k, f.kind ≠ .varint k := by simp [hk]
    have hm : ∀ t, f.kind ≠ .msg t := by simp [hk]
    unfold applyVal
    rw [upF_other hv, hk]
    cases w with
    | bytes b => exact applyPacked_plain sub hv hm _ b vs
    | f64 v => exact congrArg Upd.set (store_plain sub hv hm _ vs)
    | _ => rfl

theorem applyAt_down (sub' : Nat → Option W → Bytes → Option W) (subU : Nat → Option W → Bytes → Option W)
    (sub : Nat → W → W) (h : ∀ t o b, sub' t (o.map (sub t)) b = (subU t o b).map (sub t)) (r : Rec) (fs : List Field)
    (hf : ∀ f ∈ fs, f.Legal) : ∀ vss : List (List (Val W)),
    applyAt sub' fs (downFields sub fs vss) r = (applyAt subU (fs.map upF) vss r).map (downFields sub fs) := by
  induction fs with
  | nil => intro vss; rfl
  | cons f fs ih =>
    intro vss
    cases vss with
    | nil => rfl
    | cons vs vss =>
      simp only [downFields, List.map_cons, applyAt, upF_num]
      split
      · rw [applyVal_down sub' subU sub h f (hf f (by simp))]
        cases applyVal subU (upF f) r.wire vs <;> simp [Upd.map, downFields]
      · rw [ih (fun f h => hf f (by simp [h]))]
        cases applyAt subU (fs.map upF) vss r <;> simp [Upd.map, downFields]

theorem applyAll_down (sub' : Nat → Option W → Bytes → Option W) (subU : Nat → Option W → Bytes → Option W)
    (sub : Nat → W → W) (h : ∀ t o b, sub' t (o.map (sub t)) b = (subU t o b).map (sub t)) (fs : List Field)
    (hf : ∀ f ∈ fs, f.Legal) (rs : List Rec) : ∀ m : Body W,
    applyAll sub' fs (downB sub fs m) rs = (applyAll subU (fs.map upF) m rs).map (downB sub fs) := by
  induction rs with
  | nil => intro m; rfl
  | cons r rs ih =>
    intro m
    have e : applyRec sub' fs (downB sub fs m) r = (applyRec subU (fs.map upF) m r).map (downB sub fs) := by
      unfold applyRec
      simp only [downB]
      rw [applyAt_down sub' subU sub h r fs hf]
      cases applyAt subU (fs.map upF) m.fields r <;> simp [Upd.map, downB]
    simp only [applyAll, e]
    cases applyRec subU (fs.map upF) m r with
    | none => rfl
    | some m' => exact ih m'

theorem decBody_down (sub' : Nat → Option W → Bytes → Option W) (subU : Nat → Option W → Bytes → Option W)
    (sub : Nat → W → W) (h : ∀ t o b, sub' t (o.map (sub t)) b = (subU t o b).map (sub t)) (fs : List Field)
    (hf : ∀ f ∈ fs, f.Legal) (m : Body W) (bs : Bytes) :
    decBody sub' fs (downB sub fs m) bs = (decBody subU (fs.map upF) m bs).map (downB sub fs) := by
  unfold decBody
  cases records bs with
  | none => rfl
  | some rs => exact applyAll_down sub' subU sub h fs hf rs m

theorem downB_empty (sub : Nat → W → W) (fs : List Field) :
    downB sub fs (bodyEmpty (fs.map upF)) = bodyEmpty fs := by
  unfold downB bodyEmpty
  congr 1
  induction fs with
  | nil => rfl
  | cons f fs ih => simp only [List.map_cons, downFields]; rw [ih]; rfl

theorem downM_empty (T : Schema) (d t : Nat) : downM T d t (empty (upT T) d t) = empty T d t := by
  cases d with
  | zero => exact downB_empty _ (T t)
  | succ d => exact downB_empty _ (T t)

theorem dec_down (T : Schema) (hT : Legal T) (d : Nat) : ∀ t (m : Msg d) (bs : Bytes),
    dec T d t (downM T d t m) bs = (dec (upT T) d t m bs).map (downM T d t) := by
  induction d with
  | zero =>
    intro t m bs
    exact decBody_down (fun _ _ _ => none) (fun _ _ _ => none) (fun _ e => e) (fun _ _ _ => rfl) (T t) (hT t).2 m bs
  | succ d ih =>
    intro t m bs
    refine decBody_down _ _ (downM T d) ?_ (T t) (hT t).2 m bs
    intro t o b
    cases o with
    | none =>
      have := ih t (empty (upT T) d t) b
      rw [downM_empty] at this
      exact this
    | some w => exact ih t w b

theorem unmarshal_down (T : Schema) (hT : Legal T) (d t : Nat) (bs : Bytes) :
    unmarshal T d t bs = (unmarshal (upT T) d t bs).map (downM T d t) := by
  unfold unmarshal
  rw [← dec_down T hT, downM_empty]

/-! ### Numbers -/

/-- The number with the sign kept and all but 31 bits dropped. -/
def short (x : BitVec 64) : BitVec 64 := if x.msb then ~~~(~~~x &&& 0x7FFFFFFF) else x &&& 0x7FFFFFFF

theorem low31_bits (i : Nat) : (0x7FFFFFFF : BitVec 64).getLsbD i = decide (i < 31) := by
  have : (0x7FFFFFFF : BitVec 64) = (BitVec.allOnes 31).setWidth 64 := by decide
  rw [this, BitVec.getLsbD_setWidth, BitVec.getLsbD_allOnes]
  by_cases h : i < 31
  · simp [h]; omega
  · simp [h]

theorem short_bit (x : BitVec 64) (i : Nat) (hi : i < 64) :
    (short x).getLsbD i = if i < 31 then x.getLsbD i else x.msb := by
  unfold short
  cases h : x.msb
  · simp only [Bool.false_eq_true, if_false, BitVec.getLsbD_and, low31_bits]
    by_cases h31 : i < 31 <;> simp [h31]
  · simp only [if_true, BitVec.getLsbD_not, BitVec.getLsbD_and, low31_bits]
    by_cases h31 : i < 31 <;> simp [h31, hi]

theorem short_msb (x : BitVec 64) : (short x).msb = x.msb := by
  rw [BitVec.msb_eq_getLsbD_last, short_bit _ _ (by decide)]
  simp

theorem short_fits (x : BitVec 64) : VarKind.Fits .sint32 (short x) := by
  apply BitVec.eq_of_getLsbD_eq
  intro i hi
  rw [sext_bit, BitVec.msb_eq_getLsbD_last, BitVec.getLsbD_setWidth, BitVec.getLsbD_setWidth, short_bit _ _ hi,
    short_bit _ 31 (by decide)]
  by_cases h : i < 32
  · simp [h, hi, short_bit]
  · simp [h, hi, show ¬ i < 31 by omega, short_bit]

theorem zigzag_short (x : BitVec 64) : zigzag (short x) = zigzag x &&& 0xFFFFFFFF := by
  apply BitVec.eq_of_getLsbD_eq
  intro i hi
  rw [BitVec.getLsbD_and, low_bits, zigzag_bit, zigzag_bit, short_msb, short_bit x (i - 1) (by omega)]
  by_cases h0 : i = 0
  · subst h0; simp
  · by_cases h : i < 32
    · simp [h, show i - 1 < 31 by omega]
    · simp [h, show ¬ i - 1 < 31 by omega, hi, show 0 < i by omega]

theorem ofWire_sint32 (x : BitVec 64) : ofWire .sint32 (zigzag x) = short x := by
  have h := ofWire_toWire .sint32 (short x) (short_fits x)
  simp only [ofWire, toWire, zigzag_short] at h ⊢
  rw [← h]
  have : zigzag x &&& 0xFFFFFFFF &&& 0xFFFFFFFF = zigzag x &&& 0xFFFFFFFF := by
    rw [BitVec.and_assoc, BitVec.and_self]
  rw [this]

theorem and31 (x : BitVec 64) : (x &&& 0x7FFFFFFF).toNat = x.toNat % 2 ^ 31 := by
  rw [BitVec.toNat_and, show (0x7FFFFFFF : BitVec 64).toNat = 2 ^ 31 - 1 from rfl, Nat.and_two_pow_sub_one_eq_mod]

theorem short_int (x : BitVec 64) : short x = BitVec.ofInt 64 (VarKind.cast .sint32 x.toInt) := by
  apply BitVec.eq_of_toNat_eq
  rw [BitVec.toNat_ofInt]
  unfold short VarKind.cast
  have hx := x.isLt
  cases h : x.msb
  · have e := BitVec.toInt_eq_toNat_of_msb h
    simp only [Bool.false_eq_true, if_false]
    rw [and31, e, if_pos (by omega)]
    omega
  · have e : x.toInt = x.toNat - (2 : Int) ^ 64 := by
      rw [BitVec.toInt_eq_msb_cond, h]; rfl
    have hl := BitVec.msb_eq_true_iff_two_mul_ge.1 h
    simp only [if_true]
    rw [BitVec.toNat_not, and31, BitVec.toNat_not, e, if_neg (by omega)]
    omega

theorem int_nat (k : VarKind) (x : BitVec 64) : k.int x = x.toNat ∨ k.int x = x.toInt := by
  cases k <;> simp [VarKind.int]

theorem int_bmod (k : VarKind) (x : BitVec 64) : (k.int x).bmod (2 ^ 64) = x.toInt := by
  rcases int_nat k x with h | h
  · rw [h]; exact (BitVec.toInt_eq_toNat_bmod x).symm
  · rw [h, BitVec.toInt_eq_toNat_bmod, Int.bmod_bmod]

theorem int_mod (k : VarKind) (x : BitVec 64) : k.int x % 2 ^ 64 = x.toNat := by
  have := x.isLt
  rcases int_nat k x with h | h
  · rw [h]; omega
  · rw [h, BitVec.toInt_eq_toNat_cond]; split <;> omega

theorem int_zero (k : VarKind) (x : BitVec 64) : k.int x = 0 ↔ x = 0 := by
  rcases int_nat k x with h | h
  · rw [h]
    constructor
    · intro e; apply BitVec.eq_of_toNat_eq; simpa using e
    · rintro rfl; rfl
  · rw [h]
    constructor
    · intro e; apply BitVec.eq_of_toInt_eq; simpa using e
    · rintro rfl; rfl

theorem convNum_wire (k k' : VarKind) (h : k.zig = k'.zig) (x : BitVec 64) :
    ofWire k' (toWire k x) = convNum k k' x := by
  unfold convNum
  have h1 := int_mod k x
  have h2 := int_bmod k x
  cases k' with
  | sint32 =>
    have e : toWire k x = zigzag x := by cases k <;> simp_all [VarKind.zig, toWire]
    have e' : k.int x = x.toInt := by cases k <;> simp_all [VarKind.zig, VarKind.int]
    rw [e, e', ofWire_sint32, short_int]
  | sint64 =>
    have e : toWire k x = zigzag x := by cases k <;> simp_all [VarKind.zig, toWire]
    have e' : k.int x = x.toInt := by cases k <;> simp_all [VarKind.zig, VarKind.int]
    rw [e, e']
    simp only [ofWire, VarKind.cast, unzigzag_zigzag, BitVec.ofInt_toInt]
  | int32 =>
    have e : toWire k x = x := by cases k <;> simp_all [VarKind.zig, toWire]
    rw [e]
    simp only [ofWire, VarKind.cast]
    show BitVec.ofInt 64 (x.setWidth 32).toInt = _
    congr 1
    rw [BitVec.toInt_setWidth]
    have : (k.int x).bmod (2 ^ 32) = (k.int x % 2 ^ 64).bmod (2 ^ 32) := by
      have e : k.int x % ((2 ^ 32 : Nat) : Int) = k.int x % 2 ^ 64 % ((2 ^ 32 : Nat) : Int) := by
        rw [Int.emod_emod_of_dvd _ (by decide)]
      unfold Int.bmod
      rw [e]
    rw [this, h1]
  | uint32 =>
    have e : toWire k x = x := by cases k <;> simp_all [VarKind.zig, toWire]
    rw [e]
    simp only [ofWire, VarKind.cast]
    apply BitVec.eq_of_toNat_eq
    rw [BitVec.toNat_ofInt]
    simp
    omega
  | int64 =>
    have e : toWire k x = x := by cases k <;> simp_all [VarKind.zig, toWire]
    rw [e]
    simp only [ofWire, VarKind.cast]
    rw [h2, BitVec.ofInt_toInt]
  | uint64 =>
    have e : toWire k x = x := by cases k <;> simp_all [VarKind.zig, toWire]
    rw [e]
    simp only [ofWire, VarKind.cast]
    rw [h1]
    apply BitVec.eq_of_toNat_eq
    rw [BitVec.toNat_ofInt]
    have := x.isLt
    omega
  | bool =>
    have e : toWire k x = x := by cases k <;> simp_all [VarKind.zig, toWire]
    rw [e]
    simp only [ofWire, VarKind.cast, int_zero]
    split <;> rfl

/-! ### Together -/

theorem upT_retyped {T T' : Schema} (h : Retyped T T') : upT T = upT T' := by
  funext t
  have h0 := h t
  show (T t).map upF = (T' t).map upF
  generalize T t = l, T' t = l' at h0
  induction h0 with
  | nil => rfl
  | @cons f g fs gs h1 _ ih =>
    rw [List.map_cons, List.map_cons, ih]
    congr 1
    obtain ⟨hn, hc, hk | ⟨k, k', hk, hk', _⟩⟩ := h1
    · cases f; cases g; simp_all
    · cases f; cases g; simp_all [upF]

theorem downVal_up (sub1 sub2 sub3 : Nat → W → W) (hs : ∀ t w, sub2 t (sub1 t w) = sub3 t w) {f g : Field}
    (h : f.Retypes g) (v : Val W) :
    downVal sub2 g.kind (upVal sub1 f.kind v) = convVal sub3 f.kind g.kind v := by
  obtain ⟨_, _, hk | ⟨k, k', hk, hk', hz⟩⟩ := h
  · rw [hk]
    cases f.kind with
    | varint k =>
      cases v with
      | num x => exact congrArg Val.num (convNum_wire k k rfl x)
      | _ => rfl
    | msg t =>
      cases v with
      | msg w => exact congrArg Val.msg (hs t w)
      | _ => rfl
    | _ => cases v <;> rfl
  · rw [hk, hk']
    cases v with
    | num x => exact congrArg Val.num (convNum_wire k k' hz x)
    | _ => rfl

theorem downFields_up (sub1 sub2 sub3 : Nat → W → W) (hs : ∀ t w, sub2 t (sub1 t w) = sub3 t w) {fs gs : List Field}
    (h : List.Forall₂ Field.Retypes fs gs) : ∀ vss : List (List (Val W)),
    downFields sub2 gs (upFields sub1 fs vss) = convFields sub3 fs gs vss := by
  induction h with
  | nil => intro vss; rfl
  | @cons f g fs gs h1 _ ih =>
    intro vss
    cases vss with
    | nil => rfl
    | cons vs vss =>
      simp only [upFields, downFields, convFields, ih vss, downVals, List.map_map]
      congr 3
      funext v
      exact downVal_up sub1 sub2 sub3 hs h1 v

theorem down_up {T T' : Schema} (h : Retyped T T') (d : Nat) : ∀ t (m : Msg d),
    downM T' d t (upM T d t m) = conv T T' d t m := by
  induction d with
  | zero =>
    intro t m
    show (⟨_, _⟩ : Body Empty) = ⟨_, _⟩
    exact congrArg (fun l => (⟨l, Body.unknown m⟩ : Body Empty)) (downFields_up _ _ _ (fun _ _ => rfl) (h t) (Body.fields m))
  | succ d ih =>
    intro t m
    show (⟨_, _⟩ : Body (Msg d)) = ⟨_, _⟩
    exact congrArg (fun l => (⟨l, Body.unknown m⟩ : Body (Msg d))) (downFields_up _ _ _ ih (h t) (Body.fields m))

theorem marshal_up (T : Schema) (d t : Nat) (m : Msg d) : marshal (upT T) d t (upM T d t m) = marshal T d t m := by
  unfold marshal; rw [enc_up]

theorem size_up (T : Schema) (d t : Nat) (m : Msg d) : size (upT T) d t (upM T d t m) = size T d t m := by
  unfold size; rw [enc_up]

end Gofer.Proto
