import Verif.Proof.ProtoMsg

namespace Gofer.Proto
open Gofer.Spec.Proto

variable {W : Type} (sub : Nat → Option W → Bytes → Option W)

/-! ### a newer message read by an older program -/

/-- The fields of a message that had `xs` after reading those written for `ys`. -/
def joinFields (old : Field → Option Field) (mg : Nat → Option W → W → W) : List Field → List (List (Val W)) →
    List (List (Val W)) → List (List (Val W))
  | f :: fs, xs, y :: ys =>
    match old f, xs with
    | none, xs => joinFields old mg fs xs ys
    | some g, x :: xs => join mg g x y :: joinFields old mg fs xs ys
    | some _, [] => []
  | _, _, _ => []

/-- The records of the fields that the older version does not know. -/
def droppedRecs (old : Field → Option Field) (full : Nat → W → Bytes) : List Field → List (List (Val W)) → List Rec
  | f :: fs, y :: ys =>
    match old f with
    | none => recsOf full f y ++ droppedRecs old full fs ys
    | some _ => droppedRecs old full fs ys
  | _, _ => []

theorem allRecs_num (full : Nat → W → Bytes) (fs : List Field) : ∀ (ys : List (List (Val W))),
    ∀ r ∈ allRecs full fs ys, ∃ f ∈ fs, f.num = r.num := by
  induction fs with
  | nil => intro ys r hr; simp [allRecs] at hr
  | cons f fs ih =>
    intro ys r hr
    cases ys with
    | nil => simp [allRecs] at hr
    | cons y ys =>
      rcases List.mem_append.mp hr with hr | hr
      · exact ⟨f, by simp, recsOf_num full f y r hr⟩
      · obtain ⟨g, hg, e⟩ := ih ys r hr
        exact ⟨g, List.mem_cons_of_mem _ hg, e⟩

theorem older_num {old : Field → Option Field} (hold : ∀ f g, old f = some g → Compat f g) {fs : List Field} {g : Field}
    (hg : g ∈ fs.filterMap old) : ∃ f ∈ fs, old f = some g ∧ g.num = f.num := by
  obtain ⟨f, hf, e⟩ := List.mem_filterMap.mp hg
  exact ⟨f, hf, e, (hold f g e).1⟩

theorem forward_fields {old : Field → Option Field} (hold : ∀ f g, old f = some g → Compat f g)
    {good al : Nat → W → Prop} {full : Nat → W → Bytes} {mg : Nat → Option W → W → W}
    (hsub : Reads sub good al full mg) {fs : List Field} (hp : fs.Pairwise (fun f g => f.num < g.num))
    (hl : ∀ f ∈ fs, f.Legal) {ys : List (List (Val W))} (hy : List.Forall₂ (VG true good) fs ys) :
    ∀ (xs : List (List (Val W))) (u : Bytes), List.Forall₂ (VG true al) (fs.filterMap old) xs →
    applyAll sub (fs.filterMap old) ⟨xs, u⟩ (allRecs full fs ys) =
      some ⟨joinFields old mg fs xs ys, u ++ ((droppedRecs old full fs ys).map chunk).flatten⟩ := by
  induction hy with
  | nil => intro xs u hx; cases hx; simp [allRecs, applyAll, joinFields, droppedRecs]
  | @cons f y fs ys hv _ ih =>
    intro xs u hx
    obtain ⟨hp1, hp2⟩ := List.pairwise_cons.mp hp
    have ih := ih hp2 (fun f hf => hl f (List.mem_cons_of_mem _ hf))
    have hdiff : ∀ g ∈ fs.filterMap old, f.num ≠ g.num := by
      intro g hg
      obtain ⟨f', hf', _, e⟩ := older_num hold hg
      have := hp1 f' hf'
      omega
    cases ho : old f with
    | none =>
      simp only [List.filterMap_cons, ho] at hx ⊢
      simp only [allRecs, joinFields, droppedRecs, ho]
      rw [applyAll_append, applyAll_unknown]
      · simp only [Option.bind_some]
        rw [ih xs _ hx]
        simp
      · intro r hr g hg e
        have := recsOf_num full f y r hr
        exact absurd (this.trans e.symm) (hdiff g hg)
    | some g =>
      simp only [List.filterMap_cons, ho] at hx ⊢
      cases hx with
      | @cons _ x _ xs hxv hxs =>
      simp only [allRecs, joinFields, droppedRecs, ho]
      have hc := hold f g ho
      rw [applyAll_append, applyAll_head sub g _ _ (fun r hr => hc.1.trans (recsOf_num full f y r hr)) u xs x _
        (fold_recs sub hsub f g hc (hl f (by simp)) x y (fun t hk w hw => held_ok hxv.1 t hk w hw) hv.1 (hv.2 rfl))]
      simp only [Option.bind_some]
      have := applyAll_skip sub g (fs.filterMap old) (allRecs full fs ys) (fun r hr => ?_) (join mg g x y) ⟨xs, u⟩
      · simp only [consField] at this
        rw [this, ih xs u hxs]
        simp [consField]
      · obtain ⟨f', hf', e⟩ := allRecs_num full fs ys r hr
        have := hp1 f' hf'
        have := hc.1
        omega

theorem unknownTo_older {old : Field → Option Field} (hold : ∀ f g, old f = some g → Compat f g) {fs : List Field}
    {r : Rec} (h : unknownTo fs r) : unknownTo (fs.filterMap old) r := by
  intro g hg e
  obtain ⟨f, hf, e1, e2⟩ := older_num hold hg
  rw [(hold f g e1).accepts]
  exact h f hf (e2.symm.trans e)

/-- The bytes of a message, without the check for UTF-8. -/
def bodyFull (full : Nat → W → Bytes) (fs : List Field) (m : Body W) : Bytes :=
  ((allRecs full fs m.fields).map chunk).flatten ++ m.unknown

theorem body_forward {old : Field → Option Field} (hold : ∀ f g, old f = some g → Compat f g)
    {good al : Nat → W → Prop} {full : Nat → W → Bytes} {mg : Nat → Option W → W → W}
    (hsub : Reads sub good al full mg) {fs : List Field} (hp : fs.Pairwise (fun f g => f.num < g.num))
    (hl : ∀ f ∈ fs, f.Legal) {x y : Body W} (hy : BodyFit true good fs y)
    (hx : BodyFit true al (fs.filterMap old) x) (hs : (bodyFull full fs y).length < 2 ^ 64) :
    decBody sub (fs.filterMap old) x (bodyFull full fs y) =
      some ⟨joinFields old mg fs x.fields y.fields,
        x.unknown ++ (((droppedRecs old full fs y.fields).map chunk).flatten ++ y.unknown)⟩ := by
  obtain ⟨rs, hrs, hu⟩ := hy.2
  have hy1 : List.Forall₂ (ValsOk good) fs y.fields := hy.1.imp (fun _ _ h => h.1)
  have hok := allRecs_ok full fs hl y.fields hy1 (fun r hr => by
    have := raw_le_chunks _ r hr
    simp only [bodyFull, List.length_append] at hs
    omega)
  have hrec : records (bodyFull full fs y) = some (allRecs full fs y.fields ++ rs) := by
    rw [bodyFull, records_chunks _ hok, hu, records_chunks' rs (fun r hr => (hrs r hr).1)]
    rfl
  rw [decBody, hrec]
  simp only
  rw [applyAll_append, show x = ⟨x.fields, x.unknown⟩ from rfl,
    forward_fields sub hold hsub hp hl hy.1 x.fields x.unknown hx.1]
  simp only [Option.bind_some]
  rw [applyAll_unknown sub _ rs (fun r hr => unknownTo_older hold (hrs r hr).2)]
  simp [hu]

/-! ### and back -/

/-- The records of the fields that the older version knows, as it writes them. -/
def keptRecs (old : Field → Option Field) (full : Nat → W → Bytes) : List Field → List (List (Val W)) → List Rec
  | f :: fs, y :: ys =>
    match old f with
    | none => keptRecs old full fs ys
    | some g => recsOf full g y ++ keptRecs old full fs ys
  | _, _ => []

theorem keptRecs_num {old : Field → Option Field} (hold : ∀ f g, old f = some g → Compat f g) (full : Nat → W → Bytes)
    (fs : List Field) : ∀ (ys : List (List (Val W))), ∀ r ∈ keptRecs old full fs ys, ∃ f ∈ fs, f.num = r.num := by
  induction fs with
  | nil => intro ys r hr; simp [keptRecs] at hr
  | cons f fs ih =>
    intro ys r hr
    cases ys with
    | nil => simp [keptRecs] at hr
    | cons y ys =>
      simp only [keptRecs] at hr
      cases ho : old f with
      | none =>
        simp only [ho] at hr
        obtain ⟨g, hg, e⟩ := ih ys r hr
        exact ⟨g, List.mem_cons_of_mem _ hg, e⟩
      | some g =>
        simp only [ho] at hr
        rcases List.mem_append.mp hr with hr | hr
        · exact ⟨f, by simp, (hold f g ho).1.symm.trans (recsOf_num full g y r hr)⟩
        · obtain ⟨g, hg, e⟩ := ih ys r hr
          exact ⟨g, List.mem_cons_of_mem _ hg, e⟩

theorem droppedRecs_num (old : Field → Option Field) (full : Nat → W → Bytes)
    (fs : List Field) : ∀ (ys : List (List (Val W))), ∀ r ∈ droppedRecs old full fs ys,
      ∃ f ∈ fs, old f = none ∧ f.num = r.num := by
  induction fs with
  | nil => intro ys r hr; simp [droppedRecs] at hr
  | cons f fs ih =>
    intro ys r hr
    cases ys with
    | nil => simp [droppedRecs] at hr
    | cons y ys =>
      simp only [droppedRecs] at hr
      cases ho : old f with
      | none =>
        simp only [ho] at hr
        rcases List.mem_append.mp hr with hr | hr
        · exact ⟨f, by simp, ho, recsOf_num full f y r hr⟩
        · obtain ⟨g, hg, e⟩ := ih ys r hr
          exact ⟨g, List.mem_cons_of_mem _ hg, e⟩
      | some g =>
        simp only [ho] at hr
        obtain ⟨g, hg, e⟩ := ih ys r hr
        exact ⟨g, List.mem_cons_of_mem _ hg, e⟩

theorem droppedRecs_sub (old : Field → Option Field) (full : Nat → W → Bytes)
    (fs : List Field) : ∀ (ys : List (List (Val W))), ∀ r ∈ droppedRecs old full fs ys, r ∈ allRecs full fs ys := by
  induction fs with
  | nil => intro ys r hr; simp [droppedRecs] at hr
  | cons f fs ih =>
    intro ys r hr
    cases ys with
    | nil => simp [droppedRecs] at hr
    | cons y ys =>
      simp only [droppedRecs] at hr
      cases ho : old f with
      | none =>
        simp only [ho] at hr
        rcases List.mem_append.mp hr with hr | hr
        · exact List.mem_append_left _ hr
        · exact List.mem_append_right _ (ih ys r hr)
      | some g =>
        simp only [ho] at hr
        exact List.mem_append_right _ (ih ys r hr)

/-- The fields of a message with the values of two joined. -/
def joinAll (mg : Nat → Option W → W → W) : List Field → List (List (Val W)) → List (List (Val W)) →
    List (List (Val W))
  | f :: fs, x :: xs, y :: ys => join mg f x y :: joinAll mg fs xs ys
  | _, _, _ => []

theorem backward_fields {old : Field → Option Field} (hold : ∀ f g, old f = some g → Compat f g)
    {good1 good2 al : Nat → W → Prop} {full1 full2 : Nat → W → Bytes} {mg : Nat → Option W → W → W}
    (hsub1 : Reads sub good1 al full1 mg) (hsub2 : Reads sub good2 al full2 mg) {fs : List Field}
    (hp : fs.Pairwise (fun f g => f.num < g.num)) (hl : ∀ f ∈ fs, f.Legal)
    (hl' : ∀ f ∈ fs, ∀ g, old f = some g → g.Legal) {ys : List (List (Val W))}
    (hy : List.Forall₂ (fun f y => (∀ g, old f = some g → VG true good1 f y) ∧ (old f = none → VG true good2 f y)) fs ys) :
    ∀ (xs : List (List (Val W))) (u : Bytes), List.Forall₂ (VG true al) fs xs →
    applyAll sub fs ⟨xs, u⟩ (keptRecs old full1 fs ys ++ droppedRecs old full2 fs ys) = some ⟨joinAll mg fs xs ys, u⟩ := by
  induction hy with
  | nil => intro xs u hx; cases hx; simp [keptRecs, droppedRecs, applyAll, joinAll]
  | @cons f y fs ys hv _ ih =>
    intro xs u hx
    obtain ⟨hp1, hp2⟩ := List.pairwise_cons.mp hp
    have ih := ih hp2 (fun f hf => hl f (List.mem_cons_of_mem _ hf)) (fun f hf => hl' f (List.mem_cons_of_mem _ hf))
    cases hx with
    | @cons _ x _ xs hxv hxs =>
    have ih := ih xs u hxs
    have hK : ∀ r ∈ keptRecs old full1 fs ys, f.num ≠ r.num := by
      intro r hr
      obtain ⟨f', hf', e⟩ := keptRecs_num hold full1 fs ys r hr
      have := hp1 f' hf'
      omega
    have hD : ∀ r ∈ droppedRecs old full2 fs ys, f.num ≠ r.num := by
      intro r hr
      obtain ⟨f', hf', _, e⟩ := droppedRecs_num old full2 fs ys r hr
      have := hp1 f' hf'
      omega
    cases ho : old f with
    | some g =>
      simp only [keptRecs, droppedRecs, ho, joinAll]
      have hc := hold f g ho
      have hv := hv.1 g ho
      have hvg : VG true good1 g y := ⟨hc.valsOk hv.1, fun _ b hk hb => hv.2 rfl b (hc.2.1.symm.trans hk) hb⟩
      rw [List.append_assoc, applyAll_append, applyAll_head sub f _ _ (fun r hr => hc.1.symm.trans (recsOf_num full1 g y r hr)) u xs x _
        (fold_recs sub hsub1 g f hc.symm (hl' f (by simp) g ho) x y (fun t hk w hw => held_ok hxv.1 t hk w hw) hvg.1 (hvg.2 rfl))]
      simp only [Option.bind_some]
      have := applyAll_skip sub f fs (keptRecs old full1 fs ys ++ droppedRecs old full2 fs ys) (fun r hr => ?_) (join mg f x y) ⟨xs, u⟩
      · simp only [consField] at this
        rw [this, ih]
        rfl
      · rcases List.mem_append.mp hr with hr | hr
        · exact hK r hr
        · exact hD r hr
    | none =>
      simp only [keptRecs, droppedRecs, ho, joinAll]
      have hv := hv.2 ho
      rw [applyAll_append] at ih ⊢
      obtain ⟨⟨xs1, u1⟩, e1, e2⟩ := Option.bind_eq_some_iff.mp ih
      have h1 := applyAll_skip sub f fs (keptRecs old full1 fs ys) hK x ⟨xs, u⟩
      simp only [consField] at h1
      rw [h1, e1]
      simp only [Option.map_some, Option.bind_some, consField]
      rw [applyAll_append, applyAll_head sub f _ _ (fun r hr => recsOf_num full2 f y r hr) u1 xs1 x _
        (fold_recs sub hsub2 f f (Compat.refl f) (hl f (by simp)) x y (fun t hk w hw => held_ok hxv.1 t hk w hw) hv.1 (hv.2 rfl))]
      simp only [Option.bind_some]
      have h2 := applyAll_skip sub f fs (droppedRecs old full2 fs ys) hD (join mg f x y) ⟨xs1, u1⟩
      simp only [consField] at h2
      rw [h2]
      rw [e2]
      rfl

/-! ### the older program's message -/

/-- What is seen of a value. -/
def seenVal (oldW : Nat → W → W) (k : Kind) (v : Val W) : Val W :=
  match k, v with
  | .msg t, .msg w => .msg (oldW t w)
  | _, v => v

theorem seenFields_cons (old : Field → Option Field) (oldW : Nat → W → W) (f : Field) (fs : List Field)
    (y : List (Val W)) (ys : List (List (Val W))) : seenFields old oldW (f :: fs) (y :: ys) =
      match old f with
      | none => seenFields old oldW fs ys
      | some _ => y.map (seenVal oldW f.kind) :: seenFields old oldW fs ys := by
  rfl

def oldBody (old : Field → Option Field) (full : Nat → W → Bytes) (oldW : Nat → W → W) (fs : List Field)
    (m : Body W) : Body W :=
  ⟨seenFields old oldW fs m.fields, ((droppedRecs old full fs m.fields).map chunk).flatten ++ m.unknown⟩

theorem recsOf_seen (full1 : Nat → W → Bytes) (oldW : Nat → W → W) (g : Field) (y : List (Val W)) :
    recsOf full1 g (y.map (seenVal oldW g.kind)) = recsOf (fun t w => full1 t (oldW t w)) g y := by
  have e : ∀ v, recVal full1 g (seenVal oldW g.kind v) = recVal (fun t w => full1 t (oldW t w)) g v := by
    intro v
    cases hk : g.kind <;> cases v <;> simp [recVal, seenVal, hk]
  have e2 : ∀ v : Val W, numOf (seenVal oldW g.kind v) = numOf v := by
    intro v
    cases g.kind <;> cases v <;> simp [numOf, seenVal]
  unfold recsOf
  split
  · have : packed g (y.map (seenVal oldW g.kind)) = packed g y := by
      simp only [packed, List.map_map]
      congr 1
      apply List.map_congr_left
      intro v _
      simp [e2]
    rw [this]
    cases y <;> simp
  · rw [List.map_map]
    apply List.map_congr_left
    intro v _
    exact e v

theorem keptRecs_seen {old : Field → Option Field} (hold : ∀ f g, old f = some g → Compat f g) (full1 : Nat → W → Bytes)
    (oldW : Nat → W → W) (fs : List Field) : ∀ (ys : List (List (Val W))),
    allRecs full1 (fs.filterMap old) (seenFields old oldW fs ys) = keptRecs old (fun t w => full1 t (oldW t w)) fs ys := by
  induction fs with
  | nil => intro ys; simp [allRecs, keptRecs]
  | cons f fs ih =>
    intro ys
    cases ys with
    | nil =>
      simp only [seenFields, keptRecs]
      cases (f :: fs).filterMap old <;> rfl
    | cons y ys =>
      rw [seenFields_cons]
      simp only [keptRecs]
      cases ho : old f with
      | none => simp only [List.filterMap_cons, ho]; exact ih ys
      | some g =>
        simp only [List.filterMap_cons, ho, allRecs]
        rw [ih ys, ← (hold f g ho).2.1, recsOf_seen]

theorem body_backward {old : Field → Option Field} (hold : ∀ f g, old f = some g → Compat f g)
    {good1 good2 al : Nat → W → Prop} {full1 full2 : Nat → W → Bytes} {oldW : Nat → W → W}
    {mg : Nat → Option W → W → W}
    (hsub1 : Reads sub good1 al (fun t w => full1 t (oldW t w)) mg) (hsub2 : Reads sub good2 al full2 mg)
    {fs : List Field} (hp : fs.Pairwise (fun f g => f.num < g.num)) (hl : ∀ f ∈ fs, f.Legal)
    (hl' : ∀ f ∈ fs, ∀ g, old f = some g → g.Legal) {x y : Body W} (hx : BodyFit true al fs x)
    (hy : List.Forall₂ (fun f y => (∀ g, old f = some g → VG true good1 f y) ∧ (old f = none → VG true good2 f y)) fs y.fields)
    (hu : UOk fs y.unknown)
    (hs1 : ∀ r ∈ keptRecs old (fun t w => full1 t (oldW t w)) fs y.fields, RecOk r)
    (hs2 : ∀ r ∈ droppedRecs old full2 fs y.fields, RecOk r) :
    decBody sub fs x (bodyFull full1 (fs.filterMap old) (oldBody old full2 oldW fs y)) =
      some ⟨joinAll mg fs x.fields y.fields, x.unknown ++ y.unknown⟩ := by
  obtain ⟨rs, hrs, hu⟩ := hu
  have hrec : records (bodyFull full1 (fs.filterMap old) (oldBody old full2 oldW fs y)) =
      some (keptRecs old (fun t w => full1 t (oldW t w)) fs y.fields ++ (droppedRecs old full2 fs y.fields ++ rs)) := by
    rw [bodyFull, oldBody, keptRecs_seen hold, records_chunks _ hs1]
    simp only
    rw [records_chunks _ hs2, hu, records_chunks' rs (fun r hr => (hrs r hr).1)]
    rfl
  rw [decBody, hrec]
  simp only
  rw [← List.append_assoc, applyAll_append, show x = ⟨x.fields, x.unknown⟩ from rfl,
    backward_fields sub hold hsub1 hsub2 hp hl hl' hy x.fields x.unknown hx.1]
  simp only [Option.bind_some]
  rw [applyAll_unknown sub _ rs (fun r hr => (hrs r hr).2)]
  simp [hu]

/-! ### joining is merging -/

theorem join_merge (mgW : Nat → W → W → W) (mgo : Nat → Option W → W → W) (oldW : Nat → W → W) (g : Field)
    (x y : List (Val W)) (hlen : isMany g = false → y.length ≤ 1)
    (hs : ∀ t a w, mgo t (some a) w = mgW t a (oldW t w))
    (he : ∀ t w, g.kind = .msg t → .msg w ∈ y → mgo t none w = oldW t w) :
    join mgo g x y = mergeVals mgW g x (y.map (seenVal oldW g.kind)) := by
  unfold join mergeVals
  by_cases hm : isMany g = true
  · rw [if_pos hm]
    have e : y.map (fresh mgo g.kind) = y.map (seenVal oldW g.kind) := by
      apply List.map_congr_left
      intro v hv
      cases hk : g.kind <;> cases v <;> simp only [fresh, seenVal]
      rename_i t w
      rw [he t w hk hv]
    rw [e]
    rcases (isMany_iff g).mp hm with h | h <;> rw [h]
  · rw [if_neg hm]
    have hm : isMany g = false := by simpa using hm
    have hc : g.card = .implicit ∨ g.card = .optional := by
      cases h : g.card <;> simp [isMany, h] at hm <;> simp
    have hlen := hlen hm
    match y, hlen with
    | [], _ =>
      simp only [List.map_nil]
      rcases hc with h | h <;> rw [h] <;> cases g.kind <;> rfl
    | [v], _ =>
      simp only [List.map_cons, List.map_nil]
      cases hk : g.kind with
      | msg t =>
        cases v with
        | msg w =>
          simp only [seenVal]
          have hw := he t w hk (by simp)
          match x with
          | [.msg a] => rcases hc with h | h <;> rw [h] <;> simp [held, hs]
          | [] => rcases hc with h | h <;> rw [h] <;> simp [held, hw]
          | [.num a] => rcases hc with h | h <;> rw [h] <;> simp [held, hw]
          | [.str a] => rcases hc with h | h <;> rw [h] <;> simp [held, hw]
          | _ :: _ :: _ => rcases hc with h | h <;> rw [h] <;> simp [held, hw]
        | num n => rcases hc with h | h <;> rw [h] <;> simp [seenVal]
        | str n => rcases hc with h | h <;> rw [h] <;> simp [seenVal]
      | varint k => rcases hc with h | h <;> rw [h] <;> simp [seenVal]
      | fixed32 => rcases hc with h | h <;> rw [h] <;> simp [seenVal]
      | fixed64 => rcases hc with h | h <;> rw [h] <;> simp [seenVal]
      | string => rcases hc with h | h <;> rw [h] <;> simp [seenVal]
      | bytes => rcases hc with h | h <;> rw [h] <;> simp [seenVal]

theorem one_value {tx : Bool} {good : Nat → W → Prop} {f : Field} {y : List (Val W)} (h : VG tx good f y)
    (hm : isMany f = false) : y.length ≤ 1 := by
  have := h.1.2
  cases hc : f.card <;> rw [hc] at this
  · exact this.1
  · exact this
  · simp [isMany, hc] at hm
  · simp [isMany, hc] at hm

theorem joinFields_merge {old : Field → Option Field} (hold : ∀ f g, old f = some g → Compat f g)
    {good : Nat → W → Prop} {tx : Bool} (mgW : Nat → W → W → W) (mgo : Nat → Option W → W → W) (oldW : Nat → W → W)
    (hs : ∀ t a w, mgo t (some a) w = mgW t a (oldW t w))
    (he : ∀ t w, good t w → mgo t none w = oldW t w) {fs : List Field} {ys : List (List (Val W))}
    (hy : List.Forall₂ (VG tx good) fs ys) : ∀ xs : List (List (Val W)), xs.length = (fs.filterMap old).length →
    joinFields old mgo fs xs ys =
      mergeFields mgW (fs.filterMap old) xs (seenFields old oldW fs ys) := by
  induction hy with
  | nil => intro xs _; simp [joinFields, mergeFields]
  | @cons f y fs ys hv _ ih =>
    intro xs hx
    rw [seenFields_cons]
    simp only [joinFields]
    cases ho : old f with
    | none =>
      simp only [List.filterMap_cons, ho] at hx ⊢
      exact ih xs hx
    | some g =>
      simp only [List.filterMap_cons, ho, List.length_cons] at hx ⊢
      have hc := hold f g ho
      cases xs with
      | nil => simp at hx
      | cons x xs =>
        simp only [List.length_cons, Nat.add_right_cancel_iff] at hx
        simp only [mergeFields]
        rw [ih xs hx, join_merge mgW mgo oldW g x y (fun hm => one_value hv (by rw [← hc.isMany]; exact hm)) hs
          (fun t w hk hw => he t w (by
            have := hv.1.1 _ hw
            rw [← hc.2.1, hk] at this
            exact this)), hc.2.1]

theorem seenVal_id (k : Kind) (v : Val W) : seenVal (fun _ w => w) k v = v := by
  cases k <;> cases v <;> rfl

theorem joinAll_merge {good : Nat → W → Prop} {tx : Bool} (mgW : Nat → W → W → W) (mgo : Nat → Option W → W → W)
    (hs : ∀ t a w, mgo t (some a) w = mgW t a w) (he : ∀ t w, good t w → mgo t none w = w) {fs : List Field} {ys : List (List (Val W))}
    (hy : List.Forall₂ (VG tx good) fs ys) : ∀ xs : List (List (Val W)), xs.length = fs.length →
    joinAll mgo fs xs ys = mergeFields mgW fs xs ys := by
  induction hy with
  | nil => intro xs _; cases xs <;> simp [joinAll, mergeFields]
  | @cons f y fs ys hv _ ih =>
    intro xs hx
    cases xs with
    | nil => simp at hx
    | cons x xs =>
      simp only [List.length_cons, Nat.add_right_cancel_iff] at hx
      simp only [joinAll, mergeFields]
      have := join_merge mgW mgo (fun _ w => w) f x y (fun hm => one_value hv hm) hs
          (fun t w hk hw => he t w (by
            have := hv.1.1 _ hw
            rw [hk] at this
            exact this))
      rw [ih xs hx, this]
      congr 2
      conv => rhs; rw [← List.map_id y]
      exact List.map_congr_left (fun v _ => seenVal_id f.kind v)

theorem mergeFields_empty {good : Nat → W → Prop} {tx : Bool} (mgW : Nat → W → W → W) {fs : List Field}
    {ys : List (List (Val W))} (hy : List.Forall₂ (VG tx good) fs ys) :
    mergeFields mgW fs (fs.map (fun _ => [])) ys = ys := by
  induction hy with
  | nil => rfl
  | @cons f y fs ys hv _ ih =>
    simp only [List.map_cons, mergeFields, ih]
    congr 1
    unfold mergeVals
    cases f.card <;> simp only [List.nil_append]
    · cases f.kind <;> cases y <;> rfl
    · cases f.kind <;> cases y <;> rfl

theorem merge_empty (T : Schema) (tx : Bool) (d t : Nat) (y : Msg d) (h : Fit T tx d t y) :
    merge T d t (empty T d t) y = y := by
  cases d with
  | zero =>
    obtain ⟨ys, u⟩ := y
    have := mergeFields_empty (fun _ e _ => e) h.1
    simp only [merge, mergeBody, empty, bodyEmpty, List.nil_append, this]
    rfl
  | succ d =>
    obtain ⟨ys, u⟩ := y
    have := mergeFields_empty (merge T d) h.1
    simp only [merge, mergeBody, empty, bodyEmpty, List.nil_append, this]
    rfl

end Gofer.Proto
