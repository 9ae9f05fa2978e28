import Verif.Model.LinkedConc
import Verif.Proof.LinkedHashMap
/-! # Lemmas about `LinkedHashMap` under concurrent use: one method step by step -/
namespace Gofer.LinkedConc
open Gofer.LinkedHashMap
open Gofer.Spec.Recency (Op Res)
open Gofer.Spec.Linear (Ev)
open Gofer.Spec.Relaxed (Item Accepts)
open Gofer.Spec.Assoc
open GoList

variable {K V : Type} [DecidableEq K]

theorem accepts_append (zk : K) (zv : V) (limit : Int) (L L' : List (Item K V)) : ∀ s s' s'', Accepts zk zv limit s L s' →
    Accepts zk zv limit s' L' s'' → Accepts zk zv limit s (L ++ L') s'' := by
  induction L with
  | nil => intro s s' s'' h h'; cases h; exact h'
  | cons x L ih =>
    intro s s' s'' h h'
    cases x with
    | call i op r => obtain ⟨s1, h1, h2⟩ := h; exact ⟨s1, h1, ih _ _ _ h2 h'⟩
    | evict i => exact ⟨h.1, ih _ _ _ h.2 h'⟩

/-- The pushed entry. -/
abbrev pushed (t : LHM K V) (k : K) (v : V) : GoList (K × V) := (t.list.pushFront (k, v)).1

/-- A `Put` in progress. -/
def PutMid (k : K) (v : V) : Loc → LHM K V → List (K × V) × Bool → Prop
  | .start, t, a => LinkedHashMap.Inv t a.1 ∧ a.2 = false
  | .swap e, t, a => ∃ t0, LinkedHashMap.Inv t0 a.1 ∧ a.2 = false ∧ t = { t0 with list := pushed t0 k v } ∧ e = t0.list.fresh
  | .drop pre, t, a => ∃ t0 es0, LinkedHashMap.Inv t0 es0 ∧ t0.m.load k = some pre ∧
      t = { t0 with list := pushed t0 k v, m := t0.m.store k t0.list.fresh } ∧ a = ((k, v) :: without k es0, false)
  | .over, t, a => ∃ t0 es0, LinkedHashMap.Inv t0 es0 ∧ t0.m.load k = none ∧
      t = { t0 with list := pushed t0 k v, m := t0.m.store k t0.list.fresh } ∧ a = ((k, v) :: es0, decide ((es0.length : Int) + 1 > t0.limit))
  | .unkey e, t, a => ∃ t0 es0, LinkedHashMap.Inv t0 es0 ∧ t0.m.load k = none ∧ t0.count + 1 > t0.limit ∧ e = (pushed t0 k v).back ∧
      t = { t0 with list := (pushed t0 k v).remove e, m := t0.m.store k t0.list.fresh, count := t0.count + 1 } ∧ a = ((k, v) :: es0, true)

/-- A method in progress. -/
def Mid : Op K V → Loc → LHM K V → List (K × V) × Bool → Prop
  | .put k v, l, t, a => PutMid k v l t a
  | .loadOrStore k v, l, t, a => PutMid k v l t a
  | .delete _, .start, t, a => LinkedHashMap.Inv t a.1 ∧ a.2 = false
  | .delete k, .drop e, t, a => ∃ t0, LinkedHashMap.Inv t0 a.1 ∧ a.2 = false ∧ t0.m.load k = some e ∧ t = { t0 with list := t0.list.remove e }
  | .delete _, _, _, _ => False
  | .clear, .start, t, a => LinkedHashMap.Inv t a.1 ∧ a.2 = false
  | .clear, .over, t, a => ∃ t0 es0, LinkedHashMap.Inv t0 es0 ∧ t = { t0 with m := AMap.empty } ∧ a = ([], false)
  | .clear, _, _, _ => False
  | _, .start, t, a => LinkedHashMap.Inv t a.1 ∧ a.2 = false
  | _, _, _, _ => False

/-- The result a method has been given already. -/
def promise (zv : V) (op : Op K V) (l : Loc) (t : LHM K V) : Option (Res K V) :=
  match op, l with
  | .put _ _, .drop e => some (putRes zv t.list op (some e))
  | .put _ _, .over => some (putRes zv t.list op none)
  | .put _ _, .unkey _ => some (putRes zv t.list op none)
  | .loadOrStore _ _, .drop e => some (putRes zv t.list op (some e))
  | .loadOrStore _ _, .over => some (putRes zv t.list op none)
  | .loadOrStore _ _, .unkey _ => some (putRes zv t.list op none)
  | .clear, .over => some .unit
  | _, _ => none

/-- `Get` is not done inside the mutex. -/
def notGet : Op K V → Prop
  | .get _ => False
  | _ => True

theorem get_lnk {m : AMap K Nat} {l : GoList (K × V)} {ids : List Nat} {es : List (K × V)} {limit count : Int}
    (hl : Lnk Prod.fst m l ids es) (k : K) : get ⟨m, l, limit, count⟩ k = find k es := by
  unfold LinkedHashMap.get
  cases hk : m.load k with
  | none => simp only [hk]; exact (find_none.2 (hl.load_none.1 hk)).symm
  | some i =>
    obtain ⟨xs, ys, exs, a, eys, rfl, rfl, h3, h4, h5, h6⟩ := hl.load_some hk
    obtain ⟨k', v'⟩ := a
    simp only at h4; subst h4
    rw [(find_split hl.nodup).1]
    simp [hk, h3]

theorem load_lt {t : LHM K V} {es : List (K × V)} (h : LinkedHashMap.Inv t es) {k : K} {e : Nat} (hl : t.m.load k = some e) :
    e < t.list.fresh := by
  obtain ⟨ids, hln⟩ := h.lnk
  exact hln.repr.lt e ((hln.map k e).1 hl).1

/-- Pushing an entry does not change what is found. -/
theorem get_pushed {t : LHM K V} {es : List (K × V)} (h : LinkedHashMap.Inv t es) (k : K) (v : V) (k' : K) :
    get { t with list := pushed t k v } k' = find k' es := by
  rw [← get_spec h]
  unfold LinkedHashMap.get
  cases hk : t.m.load k' with
  | none => rfl
  | some e =>
    have := load_lt h hk
    simp only [pushed, pushFront_fst_val]
    rw [upd_ne _ _ (by omega)]

theorem find_cons (k : K) (v : V) (es : List (K × V)) (k' : K) : find k' ((k, v) :: es) = if k = k' then some v else find k' es := by
  unfold find
  by_cases h : k = k' <;> simp [h]

theorem find_without (k k' : K) (es : List (K × V)) : find k' (without k es) = if k' = k then none else find k' es := by
  induction es with
  | nil => simp [find, without]
  | cons p es ih =>
    obtain ⟨a, b⟩ := p
    by_cases h : a = k
    · subst h
      have : without a ((a, b) :: es) = without a es := by simp [without]
      rw [this, ih, find_cons]
      by_cases h2 : k' = a
      · simp [h2]
      · simp [h2, Ne.symm h2]
    · have : without k ((a, b) :: es) = (a, b) :: without k es := by simp [without, h]
      rw [this, find_cons, find_cons, ih]
      by_cases h2 : a = k'
      · subst h2; simp [h]
      · simp [h2]

/-- The entry is in the map: what is found. -/
theorem get_stored {t : LHM K V} {es : List (K × V)} (h : LinkedHashMap.Inv t es) (k : K) (v : V) (k' : K) :
    get { t with list := pushed t k v, m := t.m.store k t.list.fresh } k' = find k' ((k, v) :: without k es) := by
  rw [find_cons, find_without]
  by_cases e : k' = k
  · subst e
    simp [LinkedHashMap.get, AMap.load_store, pushed, pushFront_fst_val]
  · rw [if_neg (Ne.symm e), if_neg e, ← get_pushed h k v k']
    unfold LinkedHashMap.get
    rw [AMap.load_store, if_neg e]

theorem mid_view {op : Op K V} {l : Loc} {t : LHM K V} {a : List (K × V) × Bool} (h : Mid op l t a) (k' : K) :
    LinkedHashMap.get t k' = find k' a.1 := by
  have hput : ∀ k v, PutMid k v l t a → LinkedHashMap.get t k' = find k' a.1 := by
    intro k v h
    cases l with
    | start => exact get_spec h.1 k'
    | swap e =>
      obtain ⟨t0, h1, _, rfl, _⟩ := h
      exact get_pushed h1 k v k'
    | drop e =>
      obtain ⟨t0, es0, h1, _, rfl, rfl⟩ := h
      exact get_stored h1 k v k'
    | over =>
      obtain ⟨t0, es0, h1, h2, rfl, rfl⟩ := h
      rw [get_stored h1 k v k']
      obtain ⟨ids, hl⟩ := h1.lnk
      rw [without_of_not_mem (hl.load_none.1 h2)]
    | unkey e =>
      obtain ⟨t0, es0, h1, h2, _, _, rfl, rfl⟩ := h
      have := get_stored h1 k v k'
      obtain ⟨ids, hl⟩ := h1.lnk
      rw [without_of_not_mem (hl.load_none.1 h2)] at this
      rw [← this]
      unfold LinkedHashMap.get
      rw [remove_val]
  cases op with
  | put k v => exact hput k v h
  | loadOrStore k v => exact hput k v h
  | delete k =>
    cases l with
    | start => exact get_spec h.1 k'
    | drop e =>
      obtain ⟨t0, h1, _, _, rfl⟩ := h
      rw [← get_spec h1]
      unfold LinkedHashMap.get
      rw [remove_val]
    | _ => exact h.elim
  | clear =>
    cases l with
    | start => exact get_spec h.1 k'
    | over =>
      obtain ⟨t0, es0, h1, rfl, rfl⟩ := h
      rfl
    | _ => exact h.elim
  | _ =>
    cases l with
    | start => exact get_spec h.1 k'
    | _ => exact h.elim

/-- What a step keeps: old entries, and the addresses in use. -/
theorem lstep_val (zk : K) (zv : V) (op : Op K V) (l : Loc) (t : LHM K V) :
    (∀ e, e < t.list.fresh → (lstep zk zv op l t).1.list.val e = t.list.val e) ∧ t.list.fresh ≤ (lstep zk zv op l t).1.list.fresh := by
  have hput : ∀ op k v, (∀ e, e < t.list.fresh → (putStep zv op k v l t).1.list.val e = t.list.val e) ∧
      t.list.fresh ≤ (putStep zv op k v l t).1.list.fresh := by
    intro op k v
    cases l with
    | start =>
      refine ⟨fun e he => ?_, Nat.le_succ _⟩
      show (t.list.pushFront (k, v)).1.val e = _
      rw [pushFront_fst_val, upd_ne _ _ (by omega)]
    | swap e => cases h : t.m.load k <;> simp [putStep, AMap.swap, h]
    | drop e => simp [putStep, remove_val, remove_fresh]
    | over =>
      simp only [putStep]
      split
      · split
        · simp [remove_val, remove_fresh]
        · simp
      · simp
    | unkey e => cases h : t.list.val e <;> simp [putStep, h]
  cases op with
  | put k v => exact hput _ k v
  | loadOrStore k v => exact hput _ k v
  | delete k =>
    cases l with
    | start => cases h : t.m.load k <;> simp [lstep, h, remove_val, remove_fresh]
    | _ => simp [lstep]
  | clear => cases l <;> simp [lstep, GoList.init]
  | moveToFront k => cases h : t.m.load k <;> simp [lstep, step, LinkedHashMap.moveToFront, h, moveToFront_val, moveToFront_fresh]
  | _ => simp [lstep, step]

/-- The result given is kept, and given once. -/
theorem mark_promise (zk : K) (zv : V) (id : Nat) {op : Op K V} {l : Loc} {t : LHM K V} {a : List (K × V) × Bool} (h : Mid op l t a)
    (hg : notGet op) :
    match promise zv op l t with
    | some r => (∀ x ∈ mark zk zv id op l t, x = .evict id) ∧
      match (lstep zk zv op l t).2 with
      | .inl l' => promise zv op l' (lstep zk zv op l t).1 = some r
      | .inr r' => r' = r
    | none => (mark zk zv id op l t = [] ∧ match (lstep zk zv op l t).2 with
        | .inl l' => promise zv op l' (lstep zk zv op l t).1 = none
        | .inr _ => False) ∨
      ∃ r, mark zk zv id op l t = [.call id op r] ∧ match (lstep zk zv op l t).2 with
        | .inl l' => promise zv op l' (lstep zk zv op l t).1 = some r
        | .inr r' => r' = r := by
  cases op with
  | get k => exact hg.elim
  | put k v =>
    cases l with
    | start => exact .inl ⟨rfl, rfl⟩
    | swap e =>
      refine .inr ⟨.unit, rfl, ?_⟩
      cases hk : t.m.load k <;> simp [lstep, putStep, AMap.swap, hk, promise, putRes]
    | drop e => simp [promise, mark, lstep, putStep, putRes]
    | over =>
      simp only [promise, mark, lstep, putStep]
      refine ⟨by simp, ?_⟩
      by_cases h1 : t.count + 1 > t.limit <;> by_cases h2 : t.list.back = 0 <;> simp [h1, h2, putRes, promise]
    | unkey e =>
      simp only [promise, mark, lstep, putStep]
      refine ⟨by simp, ?_⟩
      cases h1 : t.list.val e <;> simp [putRes]
  | loadOrStore k v =>
    cases l with
    | start => exact .inl ⟨rfl, rfl⟩
    | swap e =>
      refine .inr ⟨_, rfl, ?_⟩
      cases hk : t.m.load k <;> simp [lstep, putStep, AMap.swap, hk, promise, putRes]
    | drop e => simp [promise, mark, lstep, putStep, putRes]
    | over =>
      simp only [promise, mark, lstep, putStep]
      refine ⟨by simp, ?_⟩
      by_cases h1 : t.count + 1 > t.limit <;> by_cases h2 : t.list.back = 0 <;> simp [h1, h2, putRes, promise]
    | unkey e =>
      simp only [promise, mark, lstep, putStep]
      refine ⟨by simp, ?_⟩
      cases h1 : t.list.val e <;> simp [putRes]
  | delete k =>
    cases l with
    | start => cases hk : t.m.load k <;> simp [lstep, promise, mark, hk]
    | drop e => simp [lstep, promise, mark]
    | _ => exact h.elim
  | clear =>
    cases l with
    | start => simp [lstep, promise, mark]
    | over => simp [lstep, promise, mark]
    | _ => exact h.elim
  | _ =>
    cases l with
    | start => simp [lstep, promise, mark]
    | _ => exact h.elim

theorem find_isSome_of_load {t : LHM K V} {es : List (K × V)} (h : LinkedHashMap.Inv t es) {k : K} {e : Nat} (hk : t.m.load k = some e) :
    ∃ v, find k es = some v ∧ (t.list.val e).map Prod.snd = some v := by
  obtain ⟨ids, hl⟩ := h.lnk
  obtain ⟨xs, ys, exs, a, eys, rfl, rfl, h3, h4, h5, h6⟩ := hl.load_some hk
  obtain ⟨k', v'⟩ := a
  simp only at h4; subst h4
  exact ⟨v', (find_split hl.nodup).1, by rw [h3]; rfl⟩

theorem find_none_of_load {t : LHM K V} {es : List (K × V)} (h : LinkedHashMap.Inv t es) {k : K} (hk : t.m.load k = none) :
    find k es = none ∧ without k es = es := by
  obtain ⟨ids, hl⟩ := h.lnk
  exact ⟨find_none.2 (hl.load_none.1 hk), without_of_not_mem (hl.load_none.1 hk)⟩

theorem put_sim (zv : V) (limit : Int) (k : K) (v : V) (op : Op K V) {l : Loc} {t : LHM K V} {a : List (K × V) × Bool}
    (h : PutMid k v l t a) (hlim : t.limit = limit) :
    ∃ a' : List (K × V) × Bool,
      (match l with
        | .swap _ => a.2 = false ∧ a' = ((k, v) :: without k a.1, decide (find k a.1 = none ∧ (a.1.length : Int) + 1 > limit))
        | .unkey _ => a.2 = true ∧ a' = (a.1.dropLast, false)
        | _ => a' = a) ∧
      (match (putStep zv op k v l t).2 with
        | .inl l' => PutMid k v l' (putStep zv op k v l t).1 a'
        | .inr _ => LinkedHashMap.Inv (putStep zv op k v l t).1 a'.1 ∧ a'.2 = false) ∧
      (putStep zv op k v l t).1.limit = limit := by
  cases l with
  | start => exact ⟨a, rfl, ⟨t, h.1, h.2, rfl, rfl⟩, hlim⟩
  | swap e =>
    obtain ⟨t0, h1, h2, rfl, rfl⟩ := h
    have hlim : t0.limit = limit := hlim
    refine ⟨_, ⟨h2, rfl⟩, ?_, ?_⟩
    · cases hk : t0.m.load k with
      | none =>
        obtain ⟨f1, f2⟩ := find_none_of_load h1 hk
        simp only [putStep, AMap.swap, hk]
        refine ⟨t0, a.1, h1, hk, rfl, ?_⟩
        rw [f1, f2, hlim]; simp
      | some pre =>
        obtain ⟨v', f1, _⟩ := find_isSome_of_load h1 hk
        simp only [putStep, AMap.swap, hk]
        refine ⟨t0, a.1, h1, hk, rfl, ?_⟩
        rw [f1]; simp
    · cases hk : t0.m.load k <;> simp [putStep, AMap.swap, hk, hlim]
  | drop e =>
    obtain ⟨t0, es0, h1, hk, rfl, rfl⟩ := h
    have hlim : t0.limit = limit := hlim
    refine ⟨_, rfl, ⟨?_, rfl⟩, hlim⟩
    obtain ⟨v', f1, _⟩ := find_isSome_of_load h1 hk
    have hs := (putCore_spec h1 k v).1
    have e1 : (putCore t0 k v).1 = { t0 with m := t0.m.store k (t0.list.pushFront (k, v)).2, list := (t0.list.pushFront (k, v)).1.remove e } := by
      simp only [putCore, AMap.swap, hk]
    have e2 : Spec.Recency.put t0.limit k v es0 = (k, v) :: without k es0 := by simp only [Spec.Recency.put, f1]
    rw [e1, e2] at hs
    exact hs
  | over =>
    obtain ⟨t0, es0, h1, hk, rfl, rfl⟩ := h
    have hlim : t0.limit = limit := hlim
    have hc := h1.count
    obtain ⟨f1, f2⟩ := find_none_of_load h1 hk
    obtain ⟨ids, hl⟩ := h1.lnk
    have hp := hl.push (k, v) (hl.load_none.1 hk)
    obtain ⟨xs, i, exs, b, _, _, e3, e4, _, _⟩ := hp.back_some (by simp)
    refine ⟨_, rfl, ?_, ?_⟩
    · by_cases hx : t0.count + 1 > t0.limit
      · have hb : (pushed t0 k v).back ≠ 0 := by rw [e3]; exact e4
        simp only [putStep, if_pos hx, if_pos hb]
        refine ⟨t0, es0, h1, hk, hx, rfl, rfl, ?_⟩
        rw [decide_eq_true (by omega)]
      · simp only [putStep, if_neg hx]
        have hs := (putCore_spec h1 k v).1
        have e1 : (putCore t0 k v).1 =
            { t0 with m := t0.m.store k (t0.list.pushFront (k, v)).2, list := (t0.list.pushFront (k, v)).1, count := t0.count + 1 } := by
          simp only [putCore, AMap.swap, hk, if_neg hx]
        have e2 : Spec.Recency.put t0.limit k v es0 = (k, v) :: es0 := by
          simp only [Spec.Recency.put, f1]; rw [if_neg (by omega)]
        rw [e1, e2] at hs
        exact ⟨hs, decide_eq_false (by omega)⟩
    · simp only [putStep]
      split
      · split <;> exact hlim
      · exact hlim
  | unkey e =>
    obtain ⟨t0, es0, h1, hk, hx, rfl, rfl, rfl⟩ := h
    have hlim : t0.limit = limit := hlim
    have hc := h1.count
    obtain ⟨f1, f2⟩ := find_none_of_load h1 hk
    obtain ⟨ids, hl⟩ := h1.lnk
    have hp := hl.push (k, v) (hl.load_none.1 hk)
    obtain ⟨xs, i, exs, b, _, _, e3, e4, e5, _⟩ := hp.back_some (by simp)
    have hb : (t0.list.pushFront (k, v)).1.back ≠ 0 := by rw [e3]; exact e4
    have hv : (t0.list.pushFront (k, v)).1.val (t0.list.pushFront (k, v)).1.back = some b := by rw [e3]; exact e5
    refine ⟨_, ⟨rfl, rfl⟩, ?_, ?_⟩
    · simp only [putStep, pushed, remove_val, hv]
      have hs := (putCore_spec h1 k v).1
      have e1 : (putCore t0 k v).1 =
          { t0 with m := ((t0.m.store k (t0.list.pushFront (k, v)).2).loadAndDelete b.1).2,
                    list := (t0.list.pushFront (k, v)).1.remove (t0.list.pushFront (k, v)).1.back, count := t0.count + 1 - 1 } := by
        simp only [putCore, AMap.swap, hk, if_pos hx, if_pos hb, remove_val, hv]
      have e2 : Spec.Recency.put t0.limit k v es0 = ((k, v) :: es0).dropLast := by
        simp only [Spec.Recency.put, f1]; rw [if_pos (by omega)]
      rw [e1, e2] at hs
      exact ⟨hs, trivial⟩
    · simp only [putStep, pushed, remove_val, hv]
      exact hlim

theorem micro_sim (zk : K) (zv : V) (limit : Int) (id : Nat) {op : Op K V} {l : Loc} {t : LHM K V} {a : List (K × V) × Bool} (h : Mid op l t a)
    (hg : notGet op) (hlim : t.limit = limit) :
    ∃ a' : List (K × V) × Bool, Accepts zk zv limit a (mark zk zv id op l t) a' ∧
      (match (lstep zk zv op l t).2 with
        | .inl l' => Mid op l' (lstep zk zv op l t).1 a'
        | .inr _ => LinkedHashMap.Inv (lstep zk zv op l t).1 a'.1 ∧ a'.2 = false) ∧
      (lstep zk zv op l t).1.limit = limit := by
  obtain ⟨es, ov⟩ := a
  have one : ∀ op' : Op K V, (∀ k v, op' ≠ .put k v) → (∀ k v, op' ≠ .loadOrStore k v) → LinkedHashMap.Inv t es → ov = false →
      Accepts zk zv limit (es, ov) [.call id op' (step zk zv t op').2] ((Spec.Recency.step zk zv limit es op').1, false) ∧
      LinkedHashMap.Inv (step zk zv t op').1 (Spec.Recency.step zk zv limit es op').1 ∧ (step zk zv t op').1.limit = limit := by
    intro op' n1 n2 hi ho
    obtain ⟨s1, s2, s3⟩ := step_spec zk zv hi op'
    rw [hlim] at s1 s2 s3
    refine ⟨⟨_, ?_, rfl⟩, s2, s3⟩
    rw [s1, ho]
    cases op' with
    | put k v => exact absurd rfl (n1 k v)
    | loadOrStore k v => exact absurd rfl (n2 k v)
    | _ => rfl
  cases op with
  | get k => exact hg.elim
  | put k v =>
    obtain ⟨a', h1, h2, h3⟩ := put_sim zv limit k v (.put k v) h hlim
    refine ⟨a', ?_, h2, h3⟩
    cases l with
    | swap e => exact ⟨_, by obtain ⟨h4, h5⟩ := h1; subst h4; subst h5; rfl, rfl⟩
    | unkey e => exact ⟨h1.1, h1.2.symm⟩
    | _ => exact h1.symm
  | loadOrStore k v =>
    obtain ⟨a', h1, h2, h3⟩ := put_sim zv limit k v (.loadOrStore k v) h hlim
    refine ⟨a', ?_, h2, h3⟩
    cases l with
    | swap e =>
      obtain ⟨h4, h5⟩ := h1
      obtain ⟨t0, i1, _, rfl, _⟩ := h
      have h4 : ov = false := h4
      subst h4
      have hr : putRes zv (pushed t0 k v) (.loadOrStore k v : Op K V) (t0.m.load k) = .val ((find k es).getD zv) (find k es).isSome := by
        cases hk : t0.m.load k with
        | none => rw [(find_none_of_load i1 hk).1]; rfl
        | some e' =>
          obtain ⟨v', f1, f2⟩ := find_isSome_of_load i1 hk
          have := load_lt i1 hk
          simp only [putRes, pushed, pushFront_fst_val]
          rw [upd_ne _ _ (by omega), f2, f1]; rfl
      refine ⟨a', ?_, rfl⟩
      subst h5
      show Spec.Relaxed.step zk zv limit (es, false) (.loadOrStore k v) = some (_, putRes zv (pushed t0 k v) (.loadOrStore k v) (t0.m.load k))
      rw [hr]; rfl
    | unkey e => exact ⟨h1.1, h1.2.symm⟩
    | _ => exact h1.symm
  | delete k =>
    cases l with
    | start =>
      obtain ⟨hi, ho⟩ := h
      cases hk : t.m.load k with
      | some e =>
        simp only [mark, lstep, hk]
        exact ⟨(es, ov), rfl, ⟨t, hi, ho, hk, rfl⟩, hlim⟩
      | none =>
        have := one (.delete k) (by simp) (by simp) hi ho
        simp only [step, LinkedHashMap.delete, hk] at this
        simp only [mark, lstep, hk]
        exact ⟨_, this.1, ⟨this.2.1, rfl⟩, this.2.2⟩
    | drop e =>
      obtain ⟨t0, hi, ho, hk, rfl⟩ := h
      have ho : ov = false := ho
      subst ho
      have hs := delete_spec hi k
      simp only [LinkedHashMap.delete, hk] at hs
      exact ⟨(without k es, false), ⟨_, rfl, rfl⟩, ⟨hs, rfl⟩, hlim⟩
    | _ => exact h.elim
  | clear =>
    cases l with
    | start =>
      obtain ⟨hi, ho⟩ := h
      have ho : ov = false := ho
      subst ho
      exact ⟨([], false), ⟨_, rfl, rfl⟩, ⟨t, es, hi, rfl, rfl⟩, hlim⟩
    | over =>
      obtain ⟨t0, es0, hi, rfl, h5⟩ := h
      injection h5 with h5 h6
      subst h5 h6
      obtain ⟨ids, hl⟩ := hi.lnk
      exact ⟨([], false), rfl, ⟨⟨⟨[], hl.init⟩, rfl, by simp [lstep]⟩, rfl⟩, hlim⟩
    | _ => exact h.elim
  | back =>
    cases l with
    | start => have := one .back (by simp) (by simp) h.1 h.2; exact ⟨_, this.1, ⟨this.2.1, rfl⟩, this.2.2⟩
    | _ => exact h.elim
  | front =>
    cases l with
    | start => have := one .front (by simp) (by simp) h.1 h.2; exact ⟨_, this.1, ⟨this.2.1, rfl⟩, this.2.2⟩
    | _ => exact h.elim
  | len =>
    cases l with
    | start => have := one .len (by simp) (by simp) h.1 h.2; exact ⟨_, this.1, ⟨this.2.1, rfl⟩, this.2.2⟩
    | _ => exact h.elim
  | moveToFront k =>
    cases l with
    | start => have := one (.moveToFront k) (by simp) (by simp) h.1 h.2; exact ⟨_, this.1, ⟨this.2.1, rfl⟩, this.2.2⟩
    | _ => exact h.elim

end Gofer.LinkedConc
