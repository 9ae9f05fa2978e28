import Verif.Proof.ProtoMerge

namespace Gofer.Proto
open Gofer.Spec.Proto

variable {W : Type} (sub : Nat → Option W → Bytes → Option W)

/-! ### the complete encoding -/

theorem seq_all (l : List (Bytes × Bool)) (h : ∀ p ∈ l, p.2 = true) : (seq l).2 = true := by
  rw [seq_true l h]

theorem putField_false (sizeW : Nat → W → Nat) (encW : Nat → W → Bytes × Bool) (h : ∀ t w, (encW t w).2 = true)
    (f : Field) (vs : List (Val W)) : (putField false sizeW encW f vs).2 = true := by
  unfold putField
  split
  · rfl
  · apply seq_all
    intro p hp
    obtain ⟨v, _, rfl⟩ := List.mem_map.mp hp
    cases v with
    | num x => rfl
    | str b => simp [putVal]
    | msg w => simp only [putVal]; split <;> simp [h]

theorem mem_zipWith {A B C : Type} {g : A → B → C} {l : List A} {m : List B} {c : C} (h : c ∈ List.zipWith g l m) :
    ∃ a b, (a, b) ∈ l.zip m ∧ c = g a b := by
  induction l generalizing m with
  | nil => simp at h
  | cons a l ih =>
    cases m with
    | nil => simp at h
    | cons b m =>
      rw [List.zipWith_cons_cons] at h
      rcases List.mem_cons.mp h with rfl | h
      · exact ⟨a, b, by simp, rfl⟩
      · obtain ⟨a', b', h1, h2⟩ := ih h
        exact ⟨a', b', by simp [h1], h2⟩

theorem putBody_false (sizeW : Nat → W → Nat) (encW : Nat → W → Bytes × Bool) (h : ∀ t w, (encW t w).2 = true)
    (fs : List Field) (m : Body W) : (putBody false sizeW encW fs m).2 = true := by
  apply seq_all
  intro p hp
  rcases List.mem_append.mp hp with hp | hp
  · obtain ⟨f, v, _, rfl⟩ := mem_zipWith hp
    exact putField_false sizeW encW h _ _
  · simp at hp; subst hp; rfl

/-- The complete encoding. -/
def fullM (T : Schema) (d t : Nat) (m : Msg d) : Bytes := (enc T d false t m).1

theorem enc_false (T : Schema) (d : Nat) : ∀ t (m : Msg d), enc T d false t m = (fullM T d t m, true) := by
  induction d with
  | zero =>
    intro t m
    have : (enc T 0 false t m).2 = true := putBody_false _ _ (fun t w => nomatch w) (T t) m
    exact Prod.ext rfl this
  | succ d ih =>
    intro t m
    have : (enc T (d + 1) false t m).2 = true := putBody_false _ _ (fun t w => by rw [ih t w]) (T t) m
    exact Prod.ext rfl this

theorem full_zero (T : Schema) (tx : Bool) (t : Nat) (m : Msg 0) (h : Fit T tx 0 t m) :
    fullM T 0 t m = bodyFull (fun _ (e : Empty) => nomatch e) (T t) m := by
  have h1 := putBody_chunk (good := fun _ e => nomatch e) (fun _ (e : Empty) => nomatch e) (T t) m (h.1.imp (fun _ _ h => h.1))
  have e1 : (fun (_ : Nat) (e : Empty) => (nomatch e : Nat)) = fun t w => ((fun _ (e : Empty) => (nomatch e : Bytes)) t w).length := by
    funext _ e; exact nomatch e
  have e2 : (fun (_ : Nat) (e : Empty) => (nomatch e : Bytes × Bool)) = fun t w => ((fun _ (e : Empty) => (nomatch e : Bytes)) t w, true) := by
    funext _ e; exact nomatch e
  rw [← e1, ← e2] at h1
  exact congrArg Prod.fst h1

theorem full_succ (T : Schema) (tx : Bool) (d t : Nat) (m : Msg (d + 1)) (h : Fit T tx (d + 1) t m) :
    fullM T (d + 1) t m = bodyFull (fullM T d) (T t) m := by
  have h1 := putBody_chunk (good := Fit T tx d) (fullM T d) (T t) m (h.1.imp (fun _ _ h => h.1))
  have e2 : enc T d false = fun t w => (fullM T d t w, true) := by
    funext t w; exact enc_false T d t w
  have : enc T (d + 1) false t m = putBody false (fun t w => (fullM T d t w).length) (enc T d false) (T t) m := rfl
  rw [fullM, this, e2, h1]
  rfl

/-! ### sizes -/

theorem small_vals {tx : Bool} {good : Nat → W → Prop} (full : Nat → W → Bytes) {f : Field} {vs : List (Val W)}
    (h : VG tx good f vs) (hf : f.Legal) (hs : ∀ r ∈ recsOf full f vs, r.raw.length < 2 ^ 64) :
    VG tx (fun t w => good t w ∧ (full t w).length < 2 ^ 64) f vs := by
  apply VG_mono h
  intro t w hw hk hg
  refine ⟨hg, ?_⟩
  have hnp : f.card ≠ .packed := by
    intro e
    have := hf.2.2
    simp [hk, e] at this
  have := hs (recVal full f (.msg w)) (by rw [recsOf_single full f vs hnp]; exact List.mem_map_of_mem hw)
  simp only [recVal, hk, List.length_append] at this
  omega

theorem small_fields {tx : Bool} {good : Nat → W → Prop} (full : Nat → W → Bytes) {fs : List Field}
    {ys : List (List (Val W))} (h : List.Forall₂ (VG tx good) fs ys) (hf : ∀ f ∈ fs, f.Legal)
    (hs : ∀ r ∈ allRecs full fs ys, r.raw.length < 2 ^ 64) :
    List.Forall₂ (VG tx (fun t w => good t w ∧ (full t w).length < 2 ^ 64)) fs ys := by
  induction h with
  | nil => exact .nil
  | @cons f v fs vs hv _ ih =>
    exact .cons (small_vals full hv (hf f (by simp)) (fun r hr => hs r (List.mem_append_left _ hr)))
      (ih (fun f hf' => hf f (List.mem_cons_of_mem _ hf')) (fun r hr => hs r (List.mem_append_right _ hr)))

theorem small_recs {full : Nat → W → Bytes} {fs : List Field} {m : Body W}
    (h : (bodyFull full fs m).length < 2 ^ 64) : ∀ r ∈ allRecs full fs m.fields, r.raw.length < 2 ^ 64 := by
  intro r hr
  have := raw_le_chunks _ r hr
  simp only [bodyFull, List.length_append] at h
  omega

/-! ### the older program's message fits -/

theorem seenVals_fit {tx : Bool} {good fit : Nat → W → Prop} (oldW : Nat → W → W)
    (hg : ∀ t w, good t w → fit t (oldW t w)) {f g : Field} (hc : Compat f g) {y : List (Val W)} (h : VG tx good f y) :
    VG tx fit g (y.map (seenVal oldW f.kind)) := by
  have h' : VG tx good g y := ⟨hc.valsOk h.1, fun htx b hk hb => h.2 htx b (hc.2.1.symm.trans hk) hb⟩
  refine ⟨⟨?_, ?_⟩, ?_⟩
  · intro v hv
    obtain ⟨w, hw, rfl⟩ := List.mem_map.mp hv
    have := h.1.1 w hw
    rw [hc.2.1]
    cases hk : f.kind <;> cases w <;> simp_all [ValOk, seenVal]
  · have := h'.1.2
    cases hcd : g.card <;> rw [hcd] at this <;> simp only [List.length_map] <;> try trivial
    · refine ⟨this.1, ?_⟩
      intro v hv
      obtain ⟨w, hw, rfl⟩ := List.mem_map.mp hv
      have := this.2 w hw
      cases hk : f.kind <;> cases w <;> simp_all [seenVal, IsZero]
  · intro htx b hk hb
    obtain ⟨w, hw, e⟩ := List.mem_map.mp hb
    rw [← hc.2.1, hk] at e
    simp only [seenVal] at e
    subst e
    exact h'.2 htx b hk hw

theorem seenFields_fit {tx : Bool} {good fit : Nat → W → Prop} {old : Field → Option Field}
    (hold : ∀ f g, old f = some g → Compat f g) (oldW : Nat → W → W) (hg : ∀ t w, good t w → fit t (oldW t w))
    {fs : List Field} {ys : List (List (Val W))} (h : List.Forall₂ (VG tx good) fs ys) :
    List.Forall₂ (VG tx fit) (fs.filterMap old) (seenFields old oldW fs ys) := by
  induction h with
  | nil => exact .nil
  | @cons f y fs ys hv _ ih =>
    rw [seenFields_cons]
    cases ho : old f with
    | none => simp only [List.filterMap_cons, ho]; exact ih
    | some g =>
      simp only [List.filterMap_cons, ho]
      exact .cons (seenVals_fit oldW hg (hold f g ho) hv) ih

theorem UOk_older {old : Field → Option Field} (hold : ∀ f g, old f = some g → Compat f g) {fs : List Field} {u : Bytes}
    (h : UOk fs u) : UOk (fs.filterMap old) u := by
  obtain ⟨rs, h1, h2⟩ := h
  exact ⟨rs, fun r hr => ⟨(h1 r hr).1, unknownTo_older hold (h1 r hr).2⟩, h2⟩

theorem oldBody_fit {tx : Bool} {good fit : Nat → W → Prop} {old : Field → Option Field}
    (hold : ∀ f g, old f = some g → Compat f g) (full : Nat → W → Bytes) (oldW : Nat → W → W)
    (hg : ∀ t w, good t w → fit t (oldW t w)) {fs : List Field} (hp : fs.Pairwise (fun f g => f.num < g.num))
    {m : Body W} (h : BodyFit tx good fs m) (hr : ∀ r ∈ allRecs full fs m.fields, RecOk r) :
    BodyFit tx fit (fs.filterMap old) (oldBody old full oldW fs m) := by
  refine ⟨seenFields_fit hold oldW hg h.1, UOk.append ?_ (UOk_older hold h.2)⟩
  refine ⟨droppedRecs old full fs m.fields, fun r hr' => ⟨hr r (droppedRecs_sub old full fs _ r hr'), ?_⟩, rfl⟩
  intro g hg e
  obtain ⟨f, hf, e1, e2⟩ := droppedRecs_num old full fs _ r hr'
  obtain ⟨f', hf', e3, e4⟩ := older_num hold hg
  exfalso
  have : f ≠ f' := by
    intro e; subst e; rw [e1] at e3; simp at e3
  have hne : f.num ≠ f'.num := by
    intro en
    rcases List.pairwise_iff_getElem.mp hp with hpp
    obtain ⟨i, hi, ei⟩ := List.getElem_of_mem hf
    obtain ⟨j, hj, ej⟩ := List.getElem_of_mem hf'
    rcases Nat.lt_trichotomy i j with hij | hij | hij
    · have := hpp i j hi hj hij
      rw [ei, ej] at this; omega
    · subst hij; rw [ei] at ej; exact this ej
    · have := hpp j i hj hi hij
      rw [ei, ej] at this; omega
  omega

def oldMsg (T : Schema) (old : Older) : (d : Nat) → Nat → Msg d → Msg d
  | 0, t, m => oldBody (old t) (fun _ (e : Empty) => nomatch e) (fun _ e => e) (T t) m
  | d + 1, t, m => oldBody (old t) (fullM T d) (oldMsg T old d) (T t) m

theorem older_compat {old : Older} (h : old.Fine) (t : Nat) : ∀ f g, old t f = some g → Compat f g := h t

theorem oldMsg_fit (T : Schema) (hT : Legal T) (old : Older) (ho : old.Fine) (d : Nat) : ∀ t (m : Msg d),
    Fit T true d t m → (fullM T d t m).length < 2 ^ 64 → Fit (older old T) true d t (oldMsg T old d t m) := by
  induction d with
  | zero =>
    intro t m h hs
    rw [full_zero T true t m h] at hs
    exact oldBody_fit (older_compat ho t) _ _ (fun _ w => nomatch w) (hT t).1 h
      (allRecs_ok _ (T t) (hT t).2 _ (h.1.imp (fun _ _ h => h.1)) (small_recs hs))
  | succ d ih =>
    intro t m h hs
    rw [full_succ T true d t m h] at hs
    have hr := small_recs hs
    refine oldBody_fit (good := fun t w => Fit T true d t w ∧ (fullM T d t w).length < 2 ^ 64) (older_compat ho t) _ _
      (fun t w hw => ih t w hw.1 hw.2) (hT t).1 ⟨small_fields _ h.1 (hT t).2 hr, h.2⟩
      (allRecs_ok _ (T t) (hT t).2 _ (h.1.imp (fun _ _ h => h.1)) hr)

/-! ### reading a newer message -/

theorem forward (T : Schema) (hT : Legal T) (old : Older) (ho : old.Fine) (d : Nat) : ∀ t (x y : Msg d),
    Fit T true d t y → (fullM T d t y).length < 2 ^ 64 → Fit (older old T) true d t x →
    dec (older old T) d t x (fullM T d t y) = some (merge (older old T) d t x (oldMsg T old d t y)) := by
  induction d with
  | zero =>
    intro t x y hy hs hx
    rw [full_zero T true t y hy] at hs ⊢
    have := body_forward (W := Empty) (fun _ _ _ => none) (older_compat ho t) (good := fun _ e => nomatch e)
      (al := fun _ e => nomatch e) (mg := fun _ _ e => e) (fun t o w => nomatch w) (hT t).1 (hT t).2 hy hx hs
    refine this.trans ?_
    rw [joinFields_merge (older_compat ho t) (good := fun _ e => nomatch e) (tx := true) (fun _ e _ => e) (fun _ _ e => e)
      (fun _ e => e) (fun _ a _ => nomatch a) (fun _ e => nomatch e) hy.1 _ hx.1.length_eq.symm]
    rfl
  | succ d ih =>
    intro t x y hy hs hx
    rw [full_succ T true d t y hy] at hs ⊢
    have hr := small_recs hs
    have hsm := small_fields (fullM T d) hy.1 (hT t).2 hr
    have hne : ∀ t w, Fit T true d t w ∧ (fullM T d t w).length < 2 ^ 64 →
        merge (older old T) d t (empty (older old T) d t) (oldMsg T old d t w) = oldMsg T old d t w :=
      fun t w hw => merge_empty (older old T) true d t _ (oldMsg_fit T hT old ho d t w hw.1 hw.2)
    have := body_forward (W := Msg d) (fun t o b => dec (older old T) d t (o.getD (empty (older old T) d t)) b)
      (older_compat ho t) (good := fun t w => Fit T true d t w ∧ (fullM T d t w).length < 2 ^ 64)
      (al := Fit (older old T) true d) (full := fullM T d)
      (mg := fun t o w => merge (older old T) d t (o.getD (empty (older old T) d t)) (oldMsg T old d t w))
      (fun t o w hw ho' => ih t _ w hw.1 hw.2 (by
        cases o with
        | none => exact empty_fit _ true d t
        | some w' => exact ho' w' rfl)) (hT t).1 (hT t).2 ⟨hsm, hy.2⟩ hx hs
    refine this.trans ?_
    rw [joinFields_merge (older_compat ho t) (merge (older old T) d) _ (oldMsg T old d) (fun _ _ _ => rfl)
      (fun t w hw => hne t w hw) hsm _ hx.1.length_eq.symm]
    rfl

/-! ### the same version -/

def same : Older := fun _ f => some f

theorem same_fine : same.Fine := by
  intro t f g h
  simp [same] at h
  subst h
  exact Compat.refl f

theorem older_same (T : Schema) : older same T = T := by
  funext t
  exact List.filterMap_some

theorem seenFields_same (oldW : Nat → W → W) {good : Nat → W → Prop} {tx : Bool} (hg : ∀ t w, good t w → oldW t w = w)
    {fs : List Field} {ys : List (List (Val W))} (h : List.Forall₂ (VG tx good) fs ys) :
    seenFields (fun f => some f) oldW fs ys = ys := by
  induction h with
  | nil => rfl
  | @cons f y fs ys hv _ ih =>
    rw [seenFields_cons]
    simp only [ih]
    congr 1
    conv => rhs; rw [← List.map_id y]
    apply List.map_congr_left
    intro v hv'
    have := hv.1.1 v hv'
    cases hk : f.kind <;> cases v <;> simp_all [seenVal, ValOk]

theorem droppedRecs_same (full : Nat → W → Bytes) (fs : List Field) : ∀ ys : List (List (Val W)),
    droppedRecs (fun f => some f) full fs ys = [] := by
  induction fs with
  | nil => intro ys; rfl
  | cons f fs ih => intro ys; cases ys <;> simp [droppedRecs, ih]

theorem oldMsg_same (T : Schema) (tx : Bool) (d : Nat) : ∀ t (m : Msg d), Fit T tx d t m → oldMsg T same d t m = m := by
  induction d with
  | zero =>
    intro t m h
    obtain ⟨ys, u⟩ := m
    have h1 := seenFields_same (good := fun _ e => nomatch e) (fun _ (e : Empty) => e) (fun _ e => nomatch e) h.1
    have h2 := droppedRecs_same (fun _ (e : Empty) => nomatch e) (T t) ys
    simp only [oldMsg, oldBody]
    rw [show same t = fun f => some f from rfl, h1, h2]
    rfl
  | succ d ih =>
    intro t m h
    obtain ⟨ys, u⟩ := m
    have h1 := seenFields_same (oldMsg T same d) (fun t w hw => ih t w hw) h.1
    have h2 := droppedRecs_same (fullM T d) (T t) ys
    simp only [oldMsg, oldBody]
    rw [show same t = fun f => some f from rfl, h1, h2]
    rfl

theorem dec_full (T : Schema) (hT : Legal T) (d t : Nat) (x y : Msg d) (hy : Fit T true d t y)
    (hs : (fullM T d t y).length < 2 ^ 64) (hx : Fit T true d t x) :
    dec T d t x (fullM T d t y) = some (merge T d t x y) := by
  have := forward T hT same same_fine d t x y hy hs (by rw [older_same]; exact hx)
  rwa [older_same, oldMsg_same T true d t y hy] at this

/-! ### and back -/

theorem kept_small {good : Nat → W → Prop} {old : Field → Option Field} (hold : ∀ f g, old f = some g → Compat f g)
    (full1 full2 : Nat → W → Bytes) {fs : List Field} (hl : ∀ f ∈ fs, f.Legal)
    (hl' : ∀ f ∈ fs, ∀ g, old f = some g → g.Legal) {ys : List (List (Val W))} (h : List.Forall₂ (VG true good) fs ys)
    (hs1 : ∀ r ∈ keptRecs old full1 fs ys, r.raw.length < 2 ^ 64) (hs2 : ∀ r ∈ allRecs full2 fs ys, r.raw.length < 2 ^ 64) :
    List.Forall₂ (fun f y =>
      (∀ g, old f = some g → VG true (fun t w => (good t w ∧ (full2 t w).length < 2 ^ 64) ∧ (full1 t w).length < 2 ^ 64) f y) ∧
      (old f = none → VG true (fun t w => good t w ∧ (full2 t w).length < 2 ^ 64) f y)) fs ys ∧
    ∀ r ∈ keptRecs old full1 fs ys, RecOk r := by
  induction h with
  | nil => exact ⟨.nil, by simp [keptRecs]⟩
  | @cons f v fs vs hv _ ih =>
    have hs2' : ∀ r ∈ recsOf full2 f v, r.raw.length < 2 ^ 64 := fun r hr => hs2 r (List.mem_append_left _ hr)
    have hv2 := small_vals full2 hv (hl f (by simp)) hs2'
    have hlf := fun f hf' => hl f (List.mem_cons_of_mem _ hf')
    have hlf' := fun f hf' => hl' f (List.mem_cons_of_mem _ hf')
    have ih := ih hlf hlf'
    simp only [keptRecs] at hs1 ⊢
    cases ho : old f with
    | none =>
      simp only [ho] at hs1
      obtain ⟨h1, h2⟩ := ih hs1 (fun r hr => hs2 r (List.mem_append_right _ hr))
      exact ⟨.cons ⟨by simp [ho], fun _ => hv2⟩ h1, by simpa [ho] using h2⟩
    | some g =>
      simp only [ho] at hs1
      have hc := hold f g ho
      obtain ⟨h1, h2⟩ := ih (fun r hr => hs1 r (List.mem_append_right _ hr)) (fun r hr => hs2 r (List.mem_append_right _ hr))
      have hg := hl' f (by simp) g ho
      have hvg : VG true (fun t w => good t w ∧ (full2 t w).length < 2 ^ 64) g v :=
        ⟨hc.valsOk hv2.1, fun htx b hk hb => hv2.2 htx b (hc.2.1.symm.trans hk) hb⟩
      have hs1' : ∀ r ∈ recsOf full1 g v, r.raw.length < 2 ^ 64 := fun r hr => hs1 r (List.mem_append_left _ hr)
      have h3 := small_vals full1 hvg hg hs1'
      refine ⟨.cons ⟨fun _ _ => ⟨hc.symm.valsOk h3.1, fun htx b hk hb => h3.2 htx b (hc.2.1.trans hk) hb⟩, by simp [ho]⟩ h1, ?_⟩
      intro r hr
      rcases List.mem_append.mp hr with hr | hr
      · exact recsOf_ok full1 g hg v hvg.1 hs1' r hr
      · exact h2 r hr

theorem backward (T : Schema) (hT : Legal T) (old : Older) (ho : old.Fine) (hT' : Legal (older old T)) (d : Nat) :
    ∀ t (x y : Msg d), Fit T true d t y → (fullM T d t y).length < 2 ^ 64 →
    (fullM (older old T) d t (oldMsg T old d t y)).length < 2 ^ 64 → Fit T true d t x →
    dec T d t x (fullM (older old T) d t (oldMsg T old d t y)) = some (merge T d t x y) := by
  induction d with
  | zero =>
    intro t x y hy hs hs' hx
    have hl' : ∀ f ∈ T t, ∀ g, old t f = some g → g.Legal := fun f hf g e => (hT' t).2 g (List.mem_filterMap.mpr ⟨f, hf, e⟩)
    have hof := oldMsg_fit T hT old ho 0 t y hy hs
    rw [full_zero _ true t _ hof] at hs' ⊢
    rw [full_zero T true t y hy] at hs
    have hr := small_recs hs
    have hr' := small_recs hs'
    have e1 : allRecs (fun _ (e : Empty) => nomatch e) (older old T t) (Body.fields (oldMsg T old 0 t y)) =
        keptRecs (old t) (fun _ (e : Empty) => nomatch e) (T t) (Body.fields y) := by
      have := keptRecs_seen (older_compat ho t) (fun _ (e : Empty) => nomatch e) (fun _ (e : Empty) => e) (T t) (Body.fields y)
      exact this
    rw [e1] at hr'
    obtain ⟨h1, h2⟩ := kept_small (good := fun _ (e : Empty) => nomatch e) (older_compat ho t) _ _ (hT t).2 hl' hy.1 hr' hr
    have h3 := allRecs_ok _ (T t) (hT t).2 _ (hy.1.imp (fun _ _ h => h.1)) hr
    have := body_backward (W := Empty) (fun _ _ _ => none) (older_compat ho t) (full1 := fun _ (e : Empty) => nomatch e)
      (full2 := fun _ (e : Empty) => nomatch e) (oldW := fun _ e => e) (al := fun _ e => nomatch e)
      (mg := fun _ _ e => e) (fun t o w => nomatch w) (fun t o w => nomatch w) (hT t).1 (hT t).2 hl' hx h1 hy.2 h2
      (fun r hr => h3 r (droppedRecs_sub _ _ _ _ r hr))
    refine this.trans ?_
    rw [joinAll_merge (good := fun _ (e : Empty) => nomatch e) (tx := true) (fun _ e _ => e) (fun _ _ e => e)
      (fun _ a _ => nomatch a) (fun _ e => nomatch e) hy.1 _ hx.1.length_eq.symm]
    rfl
  | succ d ih =>
    intro t x y hy hs hs' hx
    have hl' : ∀ f ∈ T t, ∀ g, old t f = some g → g.Legal := fun f hf g e => (hT' t).2 g (List.mem_filterMap.mpr ⟨f, hf, e⟩)
    have hof := oldMsg_fit T hT old ho (d + 1) t y hy hs
    rw [full_succ _ true d t _ hof] at hs' ⊢
    rw [full_succ T true d t y hy] at hs
    have hr := small_recs hs
    have hr' := small_recs hs'
    have e1 : allRecs (fullM (older old T) d) (older old T t) (Body.fields (oldMsg T old (d + 1) t y)) =
        keptRecs (old t) (fun t w => fullM (older old T) d t (oldMsg T old d t w)) (T t) (Body.fields y) := by
      have := keptRecs_seen (older_compat ho t) (fullM (older old T) d) (oldMsg T old d) (T t) (Body.fields y)
      exact this
    rw [e1] at hr'
    obtain ⟨h1, h2⟩ := kept_small (older_compat ho t) (fun t w => fullM (older old T) d t (oldMsg T old d t w)) (fullM T d)
      (hT t).2 hl' hy.1 hr' hr
    have h3 := allRecs_ok _ (T t) (hT t).2 _ (hy.1.imp (fun _ _ h => h.1)) hr
    have hal : ∀ t o, (∀ w', o = some w' → Fit T true d t w') → Fit T true d t (o.getD (empty T d t)) := by
      intro t o h
      cases o with
      | none => exact empty_fit T true d t
      | some w => exact h w rfl
    have := body_backward (W := Msg d) (fun t o b => dec T d t (o.getD (empty T d t)) b) (older_compat ho t)
      (full1 := fullM (older old T) d) (full2 := fullM T d) (oldW := oldMsg T old d) (al := Fit T true d)
      (mg := fun t o w => merge T d t (o.getD (empty T d t)) w)
      (fun t o w hw ho' => ih t _ w hw.1.1 hw.1.2 hw.2 (hal t o ho'))
      (fun t o w hw ho' => dec_full T hT d t _ w hw.1 hw.2 (hal t o ho'))
      (hT t).1 (hT t).2 hl' hx h1 hy.2 h2 (fun r hr => h3 r (droppedRecs_sub _ _ _ _ r hr))
    refine this.trans ?_
    rw [joinAll_merge (merge T d) _ (fun _ _ _ => rfl) (fun t w hw => merge_empty T true d t w hw) hy.1 _
      hx.1.length_eq.symm]
    rfl

end Gofer.Proto
