import Verif.Proof.ProtoBody

namespace Gofer.Proto
open Gofer.Spec.Proto

variable {W : Type} (sub : Nat → Option W → Bytes → Option W)

/-! ### messages that fit a type -/

/-- The values fit; strings are UTF-8 if asked for. -/
def VG (tx : Bool) (good : Nat → W → Prop) (f : Field) (vs : List (Val W)) : Prop :=
  ValsOk good f vs ∧ (tx = true → ∀ b, f.kind = .string → .str b ∈ vs → valid b = true)

def UOk (fs : List Field) (u : Bytes) : Prop :=
  ∃ rs : List Rec, (∀ r ∈ rs, RecOk r ∧ unknownTo fs r) ∧ u = (rs.map chunk).flatten

def BodyFit (tx : Bool) (fit : Nat → W → Prop) (fs : List Field) (m : Body W) : Prop :=
  List.Forall₂ (VG tx fit) fs m.fields ∧ UOk fs m.unknown

def Fit (T : Schema) (tx : Bool) : (d : Nat) → Nat → Msg d → Prop
  | 0, t, m => BodyFit tx (fun _ e => nomatch e) (T t) m
  | d + 1, t, m => BodyFit tx (Fit T tx d) (T t) m

theorem UOk.nil (fs : List Field) : UOk fs [] := ⟨[], by simp, rfl⟩

theorem UOk.append {fs : List Field} {u v : Bytes} (hu : UOk fs u) (hv : UOk fs v) : UOk fs (u ++ v) := by
  obtain ⟨rs, h1, rfl⟩ := hu
  obtain ⟨rs', h2, rfl⟩ := hv
  refine ⟨rs ++ rs', ?_, by simp⟩
  intro r hr
  rcases List.mem_append.mp hr with h | h
  · exact h1 r h
  · exact h2 r h

theorem ValOk_mono {good good' : Nat → W → Prop} {k : Kind} {v : Val W} (h : ValOk good k v)
    (hg : ∀ t w, v = .msg w → k = .msg t → good t w → good' t w) : ValOk good' k v := by
  cases k <;> cases v <;> simp_all [ValOk]

theorem VG_mono {tx : Bool} {good good' : Nat → W → Prop} {f : Field} {vs : List (Val W)} (h : VG tx good f vs)
    (hg : ∀ t w, .msg w ∈ vs → f.kind = .msg t → good t w → good' t w) : VG tx good' f vs :=
  ⟨⟨fun v hv => ValOk_mono (h.1.1 v hv) (fun t w e1 e2 => hg t w (e1 ▸ hv) e2), h.1.2⟩, h.2⟩

theorem held_ok {good : Nat → W → Prop} {f : Field} {vs : List (Val W)} (h : ValsOk good f vs) (t : Nat)
    (hk : f.kind = .msg t) (w : W) (hw : held vs = some w) : good t w := by
  unfold held at hw
  split at hw
  · simp at hw
    subst hw
    have := h.1 _ (List.mem_singleton.mpr rfl)
    rw [hk] at this
    exact this
  · simp at hw

/-! ### the specification's messages fit -/

theorem payload_read {wt : Nat} {p : Bytes} (h : Payload wt p) (num : Nat) :
    wt < 8 ∧ ∃ w : Wire, w.type = wt ∧ ∀ z, takeValue num wt (p ++ z) = some (w, z) := by
  cases h with
  | varint n p hv hn hl =>
    refine ⟨by simp, .varint (BitVec.ofNat 64 n), rfl, fun z => ?_⟩
    have : takeVarint (p ++ z) = some (n, z) := takeVarint_spec hv 9 hn (by omega) z
    simp [takeValue, takeScalar, this]
  | fixed64 p hl =>
    refine ⟨by simp, .f64 (BitVec.ofNat 64 (getLE p)), rfl, fun z => ?_⟩
    have e1 : (p ++ z).take 8 = p := by rw [List.take_append_of_le_length (by omega), List.take_of_length_le (by omega)]
    have e2 : (p ++ z).drop 8 = z := by
      rw [List.drop_append_of_le_length (by omega), List.drop_of_length_le (by omega)]; rfl
    simp only [takeValue, takeScalar, e1, e2, List.length_append, hl]
    simp
  | bytes l p hv hn hl =>
    refine ⟨by simp, .bytes p, rfl, fun z => ?_⟩
    have : takeVarint (l ++ (p ++ z)) = some (p.length, p ++ z) := takeVarint_spec hv 9 hn (by omega) _
    have e1 : (p ++ z).take p.length = p := by simp
    have e2 : (p ++ z).drop p.length = z := by simp
    simp only [takeValue, takeScalar, List.append_assoc, this, e1, e2, List.length_append]
    simp
  | fixed32 p hl =>
    refine ⟨by simp, .f32 (BitVec.ofNat 64 (getLE p)), rfl, fun z => ?_⟩
    have e1 : (p ++ z).take 4 = p := by rw [List.take_append_of_le_length (by omega), List.take_of_length_le (by omega)]
    have e2 : (p ++ z).drop 4 = z := by
      rw [List.drop_append_of_le_length (by omega), List.drop_of_length_le (by omega)]; rfl
    simp only [takeValue, takeScalar, e1, e2, List.length_append, hl]
    simp

theorem stranger_record {fs : List Field} {b : Bytes} (h : Stranger fs b) :
    ∃ r, RecOk r ∧ unknownTo fs r ∧ b = chunk r := by
  obtain ⟨num, wt, tag, p, h1, h2, h3, h4, h5, h6, rfl⟩ := h
  obtain ⟨hw, w, e, hz⟩ := payload_read h5 num
  have e2 := putVarint_unique (by omega) h3 h4
  subst e
  refine ⟨⟨num, w, p⟩, ⟨h1, h2, hw, hz⟩, ?_, by rw [e2]; rfl⟩
  intro f hf hn
  have := h6 f hf hn
  rw [← accepts_iff] at this
  simpa using this

theorem bodyOk_fit (tx : Bool) {good fit : Nat → W → Prop} {fs : List Field} {m : Body W} (h : BodyOk good fs m)
    (hg : ∀ p ∈ fs.zip m.fields, ∀ t w, p.1.kind = .msg t → .msg w ∈ p.2 → good t w → fit t w)
    (ht : tx = true → ∀ p ∈ fs.zip m.fields, ∀ b, p.1.kind = .string → .str b ∈ p.2 → valid b = true) :
    BodyFit tx fit fs m := by
  obtain ⟨h1, us, h2, h3⟩ := h
  refine ⟨?_, ?_⟩
  · obtain ⟨vs, u⟩ := m
    simp only at h1 hg ht ⊢
    clear h2 h3
    induction h1 with
    | nil => exact .nil
    | @cons f v fs vs hv _ ih =>
      refine .cons ⟨⟨fun x hx => ValOk_mono (hv.1 x hx) (fun t w e1 e2 => ?_), hv.2⟩, fun htx b hk hb => ?_⟩ (ih ?_ ?_)
      · exact hg (f, v) (by simp) t w e2 (e1 ▸ hx)
      · exact ht htx (f, v) (by simp) b hk hb
      · intro p hp; exact hg p (by simp [hp])
      · intro htx p hp; exact ht htx p (by simp [hp])
  · rw [h3]
    clear h1 h3 hg ht
    induction us with
    | nil => exact UOk.nil fs
    | cons u us ih =>
      rw [List.flatten_cons]
      refine UOk.append ?_ (ih (fun u hu => h2 u (List.mem_cons_of_mem _ hu)))
      obtain ⟨r, h1, h3, h4⟩ := stranger_record (h2 u (by simp))
      exact ⟨[r], by simp [h1, h3], by simp [h4]⟩

theorem ok_fit (T : Schema) (d : Nat) : ∀ t (m : Msg d), Ok T d t m → Fit T false d t m := by
  induction d with
  | zero => intro t m h; exact bodyOk_fit false h (fun p _ t w => nomatch w) (by simp)
  | succ d ih => intro t m h; exact bodyOk_fit false h (fun p _ t w _ _ => ih t w) (by simp)

theorem ok_texts_fit (T : Schema) (d : Nat) : ∀ t (m : Msg d), Ok T d t m → Texts T d t m → Fit T true d t m := by
  induction d with
  | zero =>
    intro t m h ht
    refine bodyOk_fit true h (fun p _ t w => nomatch w) (fun _ p hp b hk hb => ?_)
    have := ht p hp _ hb
    simp only [hk] at this
    exact (valid_text b).mpr this
  | succ d ih =>
    intro t m h ht
    refine bodyOk_fit true h (fun p hp t w hk hw hg => ?_) (fun _ p hp b hk hb => ?_)
    · have := ht p hp _ hw
      simp only [hk] at this
      exact ih t w hg this
    · have := ht p hp _ hb
      simp only [hk] at this
      exact (valid_text b).mpr this

theorem forall₂_zip {A B : Type} {R : A → B → Prop} {l : List A} {m : List B} (h : List.Forall₂ R l m) :
    ∀ p ∈ l.zip m, R p.1 p.2 := by
  induction h with
  | nil => simp
  | cons hr _ ih =>
    intro p hp
    rw [List.zip_cons_cons] at hp
    rcases List.mem_cons.mp hp with rfl | hp
    · exact hr
    · exact ih p hp

theorem fit_texts (T : Schema) (d : Nat) : ∀ t (m : Msg d), Fit T true d t m → Texts T d t m := by
  induction d with
  | zero =>
    intro t m h p hp v hv
    have hvg := forall₂_zip h.1 p hp
    cases hk : p.1.kind <;> cases v <;> simp only
    · rename_i b
      exact (valid_text b).mp (hvg.2 rfl b hk hv)
    · rename_i w; exact nomatch w
  | succ d ih =>
    intro t m h p hp v hv
    have hvg := forall₂_zip h.1 p hp
    cases hk : p.1.kind <;> cases v <;> simp only
    · rename_i b
      exact (valid_text b).mp (hvg.2 rfl b hk hv)
    · rename_i t' w
      have := hvg.1.1 _ hv
      rw [hk] at this
      exact ih t' w this

theorem bodyEmpty_fit (tx : Bool) (fit : Nat → W → Prop) (fs : List Field) : BodyFit tx fit fs (bodyEmpty fs) := by
  refine ⟨?_, UOk.nil fs⟩
  simp only [bodyEmpty]
  induction fs with
  | nil => exact .nil
  | cons f fs ih =>
    refine .cons ⟨⟨by simp, ?_⟩, by simp⟩ ih
    cases f.card <;> simp

theorem empty_fit (T : Schema) (tx : Bool) (d t : Nat) : Fit T tx d t (empty T d t) := by
  cases d with
  | zero => exact bodyEmpty_fit tx _ (T t)
  | succ d => exact bodyEmpty_fit tx _ (T t)

/-! ### what is read fits -/

theorem takeScalar_f32 {wt : Nat} {bs r : Bytes} {v : BitVec 64} (h : takeScalar wt bs = some (.f32 v, r)) :
    v.toNat < 2 ^ 32 := by
  unfold takeScalar at h
  repeat' (split at h)
  all_goals try simp only [reduceCtorEq] at h
  all_goals simp only [Option.some.injEq, Prod.mk.injEq, Wire.f32.injEq, reduceCtorEq, false_and] at h
  obtain ⟨rfl, _⟩ := h
  have h1 := getLE_lt (bs.take 4)
  have h2 : (bs.take 4).length ≤ 4 := by simp
  have h3 : 256 ^ (bs.take 4).length ≤ 256 ^ 4 := Nat.pow_le_pow_right (by omega) h2
  simp only [BitVec.toNat_ofNat]
  have := Nat.mod_le (getLE (bs.take 4)) (2 ^ 64)
  omega

theorem recOk_f32 {r : Rec} (h : RecOk r) {v : BitVec 64} (e : r.wire = .f32 v) : v.toNat < 2 ^ 32 := by
  have := h.2.2.2 []
  rw [e] at this
  have h5 : ¬ (5 : Nat) = 3 := by omega
  simp only [Wire.type, takeValue, h5, if_false] at this
  exact takeScalar_f32 this

theorem unpackGo_ok {good : Nat → W → Prop} (k : Kind) (n : Nat) : ∀ (bs : Bytes) (xs : List (BitVec 64)),
    unpackGo k n bs = some xs → wireType k ≠ 2 → ∀ x ∈ xs, ValOk good k (.num x) := by
  induction n with
  | zero =>
    intro bs xs h _
    cases bs with
    | nil => simp [unpackGo] at h; subst h; simp
    | cons b bs => simp [unpackGo] at h
  | succ n ih =>
    intro bs xs h hk
    cases bs with
    | nil => simp [unpackGo] at h; subst h; simp
    | cons b bs =>
      simp only [unpackGo] at h
      split at h
      · rename_i v r e
        split at h
        · rename_i kv
          obtain ⟨ys, e2, rfl⟩ := Option.map_eq_some_iff.mp h
          intro x hx
          rcases List.mem_cons.mp hx with rfl | hx
          · exact ofWire_fits kv v
          · exact ih r ys e2 hk x hx
        · simp at h
      · rename_i v r e
        obtain ⟨ys, e2, rfl⟩ := Option.map_eq_some_iff.mp h
        have ht := (takeScalar_some e).1
        intro x hx
        rcases List.mem_cons.mp hx with rfl | hx
        · have := takeScalar_f32 e
          cases k <;> simp_all [Wire.type, wireType, ValOk]
        · exact ih r ys e2 hk x hx
      · rename_i v r e
        obtain ⟨ys, e2, rfl⟩ := Option.map_eq_some_iff.mp h
        have ht := (takeScalar_some e).1
        intro x hx
        rcases List.mem_cons.mp hx with rfl | hx
        · cases k <;> simp_all [Wire.type, wireType, ValOk]
        · exact ih r ys e2 hk x hx
      · simp at h

theorem VG_store {fit : Nat → W → Prop} {f : Field} {v : Val W} {vs : List (Val W)} (h : VG true fit f vs)
    (hv : ValOk fit f.kind v) (ht : ∀ b, f.kind = .string → v = .str b → valid b = true) :
    VG true fit f (store f v vs) := by
  cases hc : f.card with
  | implicit =>
    cases v with
    | num x =>
      simp only [store, hc]
      split
      · exact ⟨⟨by simp, by simp [hc]⟩, by simp⟩
      · rename_i hx
        exact ⟨⟨by simpa using hv, by simpa [hc, IsZero] using hx⟩, by simp⟩
    | str b =>
      simp only [store, hc]
      split
      · exact ⟨⟨by simp, by simp [hc]⟩, by simp⟩
      · rename_i hx
        exact ⟨⟨by simpa using hv, by simpa [hc, IsZero] using hx⟩, fun _ b' hk hb => ht b' hk (List.mem_singleton.mp hb).symm⟩
    | msg w =>
      simp only [store, hc]
      exact ⟨⟨by simpa using hv, by simp [hc, IsZero]⟩, by simp⟩
  | optional =>
    simp only [store, hc]
    exact ⟨⟨by simpa using hv, by simp [hc]⟩, fun _ b' hk hb => ht b' hk (List.mem_singleton.mp hb).symm⟩
  | repeated =>
    simp only [store, hc]
    refine ⟨⟨?_, by simp [hc]⟩, ?_⟩
    · intro x hx
      rcases List.mem_append.mp hx with hx | hx
      · exact h.1.1 x hx
      · simp at hx; subst hx; exact hv
    · intro _ b hk hb
      rcases List.mem_append.mp hb with hb | hb
      · exact h.2 rfl b hk hb
      · exact ht b hk (List.mem_singleton.mp hb).symm
  | packed =>
    simp only [store, hc]
    refine ⟨⟨?_, by simp [hc]⟩, ?_⟩
    · intro x hx
      rcases List.mem_append.mp hx with hx | hx
      · exact h.1.1 x hx
      · simp at hx; subst hx; exact hv
    · intro _ b hk hb
      rcases List.mem_append.mp hb with hb | hb
      · exact h.2 rfl b hk hb
      · exact ht b hk (List.mem_singleton.mp hb).symm

/-- Reading keeps messages fit. -/
def Keeps (fit : Nat → W → Prop) : Prop :=
  ∀ t o b w, (∀ w', o = some w' → fit t w') → sub t o b = some w → fit t w

theorem VG_many {fit : Nat → W → Prop} {f : Field} {vs ys : List (Val W)} (h : VG true fit f vs)
    (hm : isMany f = true) (hy : ∀ v ∈ ys, ValOk fit f.kind v) (ht : ∀ b, .str b ∉ ys) : VG true fit f (vs ++ ys) := by
  refine ⟨⟨?_, ?_⟩, ?_⟩
  · intro x hx
    rcases List.mem_append.mp hx with hx | hx
    · exact h.1.1 x hx
    · exact hy x hx
  · rcases (isMany_iff f).mp hm with e | e <;> rw [e] <;> trivial
  · intro _ b hk hb
    rcases List.mem_append.mp hb with hb | hb
    · exact h.2 rfl b hk hb
    · exact absurd hb (ht b)

theorem applyVal_fit {fit : Nat → W → Prop} (hs : Keeps sub fit) {f : Field} {r : Rec} (hr : RecOk r)
    {vs vs' : List (Val W)} (h : VG true fit f vs) (e : applyVal sub f r.wire vs = .set vs') : VG true fit f vs' := by
  unfold applyVal at e
  have num_case : ∀ (k : Kind) (b : Bytes), f.kind = k → wireType k ≠ 2 →
      applyPacked f k b vs = .set vs' → VG true fit f vs' := by
    intro k b hk hw e
    unfold applyPacked at e
    split at e
    · rename_i hm
      split at e
      · simp at e
      · rename_i xs ex
        simp only [Upd.set.injEq] at e
        subst e
        apply VG_many h hm
        · intro v hv
          obtain ⟨x, hx, rfl⟩ := List.mem_map.mp hv
          rw [hk]
          exact unpackGo_ok k _ b xs ex hw x hx
        · simp
    · simp at e
  split at e
  · rename_i k v hk hw
    simp only [Upd.set.injEq] at e
    subst e
    exact VG_store h (by rw [hk]; exact ofWire_fits k v) (by simp)
  · rename_i v hk hw
    simp only [Upd.set.injEq] at e
    subst e
    exact VG_store h (by rw [hk]; trivial) (by simp)
  · rename_i v hk hw
    simp only [Upd.set.injEq] at e
    subst e
    exact VG_store h (by rw [hk]; exact recOk_f32 hr hw) (by simp)
  · rename_i b hk hw
    split at e
    · rename_i hv
      simp only [Upd.set.injEq] at e
      subst e
      exact VG_store h (by rw [hk]; trivial) (fun b' _ e => by simp at e; rw [← e]; exact hv)
    · simp at e
  · rename_i b hk hw
    simp only [Upd.set.injEq] at e
    subst e
    exact VG_store h (by rw [hk]; trivial) (fun b' hk' => by rw [hk] at hk'; simp at hk')
  · rename_i t b hk hw
    split at e
    · rename_i hm
      split at e
      · simp at e
      · rename_i w ew
        simp only [Upd.set.injEq] at e
        subst e
        apply VG_many h hm
        · intro v hv
          simp at hv
          subst hv
          rw [hk]
          exact hs t none b w (by simp) ew
        · simp
    · rename_i hm
      split at e
      · simp at e
      · rename_i w ew
        simp only [Upd.set.injEq] at e
        subst e
        have hw := hs t (held vs) b w (fun w' e => held_ok h.1 t hk w' e) ew
        refine ⟨⟨by simp [hk, ValOk, hw], ?_⟩, by simp⟩
        cases f.card <;> simp [IsZero]
  · rename_i k b hnk1 hnk2 hnk3 hw
    cases hk : f.kind with
    | varint v => exact num_case _ b hk (by simp [wireType]) (by simpa [hk] using e)
    | fixed32 => exact num_case _ b hk (by simp [wireType]) (by simpa [hk] using e)
    | fixed64 => exact num_case _ b hk (by simp [wireType]) (by simpa [hk] using e)
    | string => simp_all
    | bytes => simp_all
    | msg t => simp_all
  · simp at e

theorem applyAt_fit {fit : Nat → W → Prop} (hs : Keeps sub fit) {r : Rec} (hr : RecOk r) (fs : List Field) :
    ∀ (vs vs' : List (List (Val W))), List.Forall₂ (VG true fit) fs vs → applyAt sub fs vs r = .set vs' →
    List.Forall₂ (VG true fit) fs vs' := by
  induction fs with
  | nil => intro vs vs' h e; cases h; simp [applyAt] at e
  | cons f fs ih =>
    intro vs vs' h e
    cases h with
    | @cons _ v _ vs hv hvs =>
      rw [applyAt] at e
      split at e
      · cases ea : applyVal sub f r.wire v <;> rw [ea] at e <;> simp only [Upd.map, Upd.set.injEq, reduceCtorEq] at e
        subst e
        exact .cons (applyVal_fit sub hs hr hv ea) hvs
      · cases ea : applyAt sub fs vs r <;> rw [ea] at e <;> simp only [Upd.map, Upd.set.injEq, reduceCtorEq] at e
        subst e
        exact .cons hv (ih vs _ hvs ea)

theorem applyAt_unknown_inv {fit : Nat → W → Prop} {r : Rec} (fs : List Field)
    (hp : fs.Pairwise (fun f g => f.num < g.num)) :
    ∀ (vs : List (List (Val W))), List.Forall₂ (VG true fit) fs vs → applyAt sub fs vs r = .unknown →
    unknownTo fs r := by
  induction fs with
  | nil => intro vs _ _ f hf; simp at hf
  | cons f fs ih =>
    intro vs h e
    cases h with
    | @cons _ v _ vs hv hvs =>
      rw [applyAt] at e
      have hp' := List.pairwise_cons.mp hp
      split at e
      · rename_i hn
        intro g hg hgn
        rcases List.mem_cons.mp hg with rfl | hg
        · cases ha : accepts g r.wire with
          | false => rfl
          | true =>
            exfalso
            have := applyVal_known sub g r.wire v ha
            cases ea : applyVal sub g r.wire v <;> rw [ea] at e <;> simp [Upd.map] at e
            exact this ea
        · have := hp'.1 g hg
          omega
      · rename_i hn
        have e2 : applyAt sub fs vs r = .unknown := by
          cases ea : applyAt sub fs vs r <;> rw [ea] at e <;> simp [Upd.map] at e
        intro g hg hgn
        rcases List.mem_cons.mp hg with rfl | hg
        · exact absurd hgn hn
        · exact ih hp'.2 vs hvs e2 g hg hgn

theorem applyRec_fit {fit : Nat → W → Prop} (hs : Keeps sub fit) {r : Rec} (hr : RecOk r) {fs : List Field}
    (hp : fs.Pairwise (fun f g => f.num < g.num)) {m m' : Body W} (h : BodyFit true fit fs m)
    (e : applyRec sub fs m r = some m') : BodyFit true fit fs m' := by
  unfold applyRec at e
  split at e
  · rename_i ea
    simp only [Option.some.injEq] at e
    subst e
    refine ⟨h.1, UOk.append h.2 ⟨[r], ?_, by simp [chunk]⟩⟩
    intro r' hr'
    simp at hr'
    subst hr'
    exact ⟨hr, applyAt_unknown_inv sub fs hp m.fields h.1 ea⟩
  · simp at e
  · rename_i vs ea
    simp only [Option.some.injEq] at e
    subst e
    exact ⟨applyAt_fit sub hs hr fs m.fields vs h.1 ea, h.2⟩

theorem applyAll_fit {fit : Nat → W → Prop} (hs : Keeps sub fit) {fs : List Field}
    (hp : fs.Pairwise (fun f g => f.num < g.num)) (rs : List Rec) (hr : ∀ r ∈ rs, RecOk r) :
    ∀ (m m' : Body W), BodyFit true fit fs m → applyAll sub fs m rs = some m' → BodyFit true fit fs m' := by
  induction rs with
  | nil => intro m m' h e; simp [applyAll] at e; subst e; exact h
  | cons r rs ih =>
    intro m m' h e
    rw [applyAll] at e
    split at e
    · simp at e
    · rename_i m1 e1
      exact ih (fun r hr' => hr r (List.mem_cons_of_mem _ hr')) m1 m' (applyRec_fit sub hs (hr r (by simp)) hp h e1) e

theorem decBody_fit {fit : Nat → W → Prop} (hs : Keeps sub fit) {fs : List Field}
    (hp : fs.Pairwise (fun f g => f.num < g.num)) {m m' : Body W} {bs : Bytes} (h : BodyFit true fit fs m)
    (e : decBody sub fs m bs = some m') : BodyFit true fit fs m' := by
  unfold decBody at e
  split at e
  · simp at e
  · rename_i rs er
    exact applyAll_fit sub hs hp rs (records_ok er) m m' h e

theorem dec_fit (T : Schema) (hT : Legal T) (d : Nat) : ∀ t (x m : Msg d) bs, Fit T true d t x →
    dec T d t x bs = some m → Fit T true d t m := by
  induction d with
  | zero =>
    intro t x m bs hx e
    exact decBody_fit (W := Empty) (fun _ _ _ => none) (fun t o b w => nomatch w) (hT t).1 hx e
  | succ d ih =>
    intro t x m bs hx e
    refine decBody_fit (W := Msg d) (fun t o b => dec T d t (o.getD (empty T d t)) b) ?_ (hT t).1 hx e
    intro t o b w ho ew
    refine ih t _ w b ?_ ew
    cases o with
    | none => exact empty_fit T true d t
    | some w' => exact ho w' rfl

end Gofer.Proto
