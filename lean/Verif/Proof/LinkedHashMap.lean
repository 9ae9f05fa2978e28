import Verif.Model.LinkedHashMap
import Verif.Proof.Linked
import Verif.Proof.Assoc

namespace Gofer.LinkedHashMap
open GoList
open Gofer.Spec.Recency (Op Res)
open Gofer.Spec.Assoc
variable {K V : Type} [DecidableEq K]

/-- Refinement relation: the entries `es` are those of the list, the counter is their number and it
respects the limit. -/
structure Inv (t : LHM K V) (es : List (K × V)) : Prop where
  lnk : ∃ ids, Lnk Prod.fst t.m t.list ids es
  count : t.count = es.length
  bound : (es.length : Int) ≤ max t.limit 0

theorem inv_new (limit : Int) : Inv (new limit : LHM K V) [] :=
  ⟨⟨[], Lnk.new⟩, rfl, by simp [new]⟩

theorem putCore_spec {t : LHM K V} {es : List (K × V)} (h : Inv t es) (k : K) (v : V) :
    Inv (putCore t k v).1 (Spec.Recency.put t.limit k v es) ∧
    (putCore t k v).1.limit = t.limit ∧
    (if (putCore t k v).2 = 0 then none else ((putCore t k v).1.list.val (putCore t k v).2).map Prod.snd) = find k es := by
  obtain ⟨ids, hl⟩ := h.lnk
  have hc := h.count
  have hbd := h.bound
  cases hk : t.m.load k with
  | none =>
    have hnk : k ∉ es.map Prod.fst := hl.load_none.1 hk
    have hf : find k es = none := find_none.2 hnk
    have hp := hl.push (k, v) hnk
    by_cases hlim : t.count + 1 > t.limit
    · obtain ⟨xs, i, exs, a, e1, e2, e3, e4, e5, e6⟩ := hp.back_some (by simp)
      have hp' := hp
      rw [e1, e2] at hp'
      have hr := hp'.remove e5 e6 rfl
      simp only [List.append_nil] at hr
      have hput : putCore t k v = ({ t with m := ((t.m.store k (t.list.pushFront (k, v)).2).delete a.1), list := (t.list.pushFront (k, v)).1.remove i, count := t.count + 1 - 1 }, 0) := by
        simp only [putCore, AMap.swap, hk, hlim, if_true, e3, ne_eq, e4, not_false_eq_true, remove_val, e5, AMap.loadAndDelete]
      have hs : Spec.Recency.put t.limit k v es = exs := by
        simp only [Spec.Recency.put, hf]
        rw [if_pos (by omega), e2, List.dropLast_concat]
      have hlen : es.length = exs.length := by
        have := congrArg List.length e2; simpa using this
      rw [hput, hs]
      refine ⟨⟨⟨xs, hr⟩, ?_, ?_⟩, rfl, by simp [hf]⟩
      · dsimp only; omega
      · dsimp only; omega
    · have hput : putCore t k v = ({ t with m := t.m.store k (t.list.pushFront (k, v)).2, list := (t.list.pushFront (k, v)).1, count := t.count + 1 }, 0) := by
        simp only [putCore, AMap.swap, hk, hlim, if_false]
      have hs : Spec.Recency.put t.limit k v es = (k, v) :: es := by
        simp only [Spec.Recency.put, hf]
        rw [if_neg (by omega)]
      rw [hput, hs]
      refine ⟨⟨⟨_, hp⟩, ?_, ?_⟩, rfl, by simp [hf]⟩
      · simp only [List.length_cons]; push_cast; omega
      · simp only [List.length_cons]; push_cast; omega
  | some i =>
    obtain ⟨xs, ys, exs, a, eys, rfl, rfl, h3, h4, h5, h6⟩ := hl.load_some hk
    obtain ⟨k', v'⟩ := a
    simp only at h4; subst h4
    obtain ⟨hf, hw⟩ := find_split hl.nodup
    have hr := hl.replace (b := (k', v)) h3 rfl h5 h6
    have hput : putCore t k' v = ({ t with m := t.m.store k' (t.list.pushFront (k', v)).2, list := (t.list.pushFront (k', v)).1.remove i }, i) := by
      simp only [putCore, AMap.swap, hk]
    have hs : Spec.Recency.put t.limit k' v (exs ++ (k', v') :: eys) = (k', v) :: (exs ++ eys) := by
      simp only [Spec.Recency.put, hf, hw]
    have hi0 : i ≠ 0 := hl.repr.pos i (by simp)
    rw [hput, hs, hf]
    refine ⟨⟨⟨_, hr⟩, ?_, ?_⟩, rfl, ?_⟩
    · simp only [List.length_append, List.length_cons] at hc ⊢; omega
    · simp only [List.length_append, List.length_cons] at hbd ⊢; omega
    · rw [if_neg hi0, remove_val, pushFront_fst_val, upd_ne, h3]; · rfl
      rintro rfl
      exact not_mem_fresh hl.repr (by simp)

theorem get_spec {t : LHM K V} {es : List (K × V)} (h : Inv t es) (k : K) : get t k = find k es := by
  obtain ⟨ids, hl⟩ := h.lnk
  unfold get
  cases hk : t.m.load k with
  | none => exact (find_none.2 (hl.load_none.1 hk)).symm
  | some i =>
    obtain ⟨xs, ys, exs, a, eys, rfl, rfl, h3, h4, h5, h6⟩ := hl.load_some hk
    obtain ⟨k', v'⟩ := a
    simp only at h4; subst h4
    rw [(find_split hl.nodup).1]
    simp [h3]

theorem delete_spec {t : LHM K V} {es : List (K × V)} (h : Inv t es) (k : K) : Inv (delete t k) (without k es) := by
  obtain ⟨ids, hl⟩ := h.lnk
  have hc := h.count
  have hb := h.bound
  unfold delete
  cases hk : t.m.load k with
  | none =>
    rw [without_of_not_mem (hl.load_none.1 hk)]
    exact h
  | some i =>
    obtain ⟨xs, ys, exs, a, eys, rfl, rfl, h3, h4, h5, h6⟩ := hl.load_some hk
    obtain ⟨k', v'⟩ := a
    simp only at h4; subst h4
    rw [(find_split hl.nodup).2]
    refine ⟨⟨_, hl.remove h3 h5 h6⟩, ?_, ?_⟩
    · simp only [List.length_append, List.length_cons] at hc ⊢; push_cast at hc ⊢; omega
    · simp only [List.length_append, List.length_cons] at hb ⊢; push_cast at hb ⊢; omega

theorem moveToFront_spec {t : LHM K V} {es : List (K × V)} (h : Inv t es) (k : K) :
    Inv (moveToFront t k) (match find k es with | some v => (k, v) :: without k es | none => es) := by
  obtain ⟨ids, hl⟩ := h.lnk
  have hc := h.count
  have hb := h.bound
  unfold moveToFront
  cases hk : t.m.load k with
  | none =>
    rw [find_none.2 (hl.load_none.1 hk)]
    exact h
  | some i =>
    obtain ⟨xs, ys, exs, a, eys, rfl, rfl, h3, h4, h5, h6⟩ := hl.load_some hk
    obtain ⟨k', v'⟩ := a
    simp only at h4; subst h4
    rw [(find_split hl.nodup).2, (find_split hl.nodup).1]
    refine ⟨⟨_, hl.moveToFront h3 h5 h6⟩, ?_, ?_⟩
    · simp only [List.length_append, List.length_cons] at hc ⊢; omega
    · simp only [List.length_append, List.length_cons] at hb ⊢; omega

theorem back_spec {t : LHM K V} {es : List (K × V)} (h : Inv t es) : back t = es.getLast? := by
  obtain ⟨ids, hl⟩ := h.lnk
  unfold back
  by_cases he : es = []
  · subst he
    rw [hl.back_none]; rfl
  · obtain ⟨xs, i, exs, a, e1, e2, e3, e4, e5, e6⟩ := hl.back_some he
    rw [e3, if_pos e4, e5, e2]; simp

theorem front_spec {t : LHM K V} {es : List (K × V)} (h : Inv t es) : front t = es.head? := by
  obtain ⟨ids, hl⟩ := h.lnk
  unfold front
  cases es with
  | nil => rw [hl.front_none]; rfl
  | cons a es =>
    obtain ⟨h1, h2⟩ := hl.front_some
    rw [if_pos h1, h2]; rfl

theorem step_spec (zk : K) (zv : V) {t : LHM K V} {es : List (K × V)} (h : Inv t es) (o : Op K V) :
    (step zk zv t o).2 = (Spec.Recency.step zk zv t.limit es o).2 ∧
    Inv (step zk zv t o).1 (Spec.Recency.step zk zv t.limit es o).1 ∧
    (step zk zv t o).1.limit = t.limit := by
  cases o with
  | put k v => exact ⟨rfl, (putCore_spec h k v).1, (putCore_spec h k v).2.1⟩
  | loadOrStore k v =>
    obtain ⟨h1, h2, h3⟩ := putCore_spec h k v
    have e1 : (loadOrStore t k v).1 = (putCore t k v).1 := by
      simp only [loadOrStore]; split <;> rfl
    have e2 : (loadOrStore t k v).2 = find k es := by
      rw [← h3]; simp only [loadOrStore]; split <;> rfl
    refine ⟨?_, by simp only [step, e1]; exact h1, by simp only [step, e1]; exact h2⟩
    simp only [step, e2, Spec.Recency.step]
    cases find k es <;> rfl
  | get k =>
    refine ⟨?_, h, rfl⟩
    simp only [step, get_spec h, Spec.Recency.step]
    cases find k es <;> rfl
  | delete k =>
    refine ⟨rfl, delete_spec h k, ?_⟩
    simp only [step, delete]; split <;> rfl
  | back =>
    refine ⟨?_, h, rfl⟩
    simp only [step, back_spec h, Spec.Recency.step]
    cases es.getLast? <;> rfl
  | front =>
    refine ⟨?_, h, rfl⟩
    simp only [step, front_spec h, Spec.Recency.step]
    cases es.head? <;> rfl
  | clear =>
    obtain ⟨ids, hl⟩ := h.lnk
    exact ⟨rfl, ⟨⟨_, hl.init⟩, rfl, by simp [Spec.Recency.step]⟩, rfl⟩
  | len => exact ⟨by simp [step, len, h.count, Spec.Recency.step], h, rfl⟩
  | moveToFront k =>
    refine ⟨rfl, moveToFront_spec h k, ?_⟩
    simp only [step, moveToFront]; split <;> rfl

theorem run_spec (zk : K) (zv : V) (limit : Int) {t : LHM K V} {es : List (K × V)} (h : Inv t es)
    (hl : t.limit = limit) (os : List (Op K V)) :
    run zk zv t os = Spec.Recency.run zk zv limit es os ∧
    Inv (final zk zv t os) (Spec.Recency.final zk zv limit es os) ∧ (final zk zv t os).limit = limit := by
  induction os generalizing t es with
  | nil => exact ⟨rfl, h, hl⟩
  | cons o os ih =>
    obtain ⟨h1, h2, h3⟩ := step_spec zk zv h o
    rw [hl] at h1 h2 h3
    obtain ⟨h4, h5, h6⟩ := ih h2 h3
    exact ⟨by simp only [run, Spec.Recency.run, h1, h4], h5, h6⟩

/-! ### Iterator -/

/-- The iterator stands before the ids `rest` of the walk direction. -/
def At (t : LHM K V) (it : Iter) (rest : List Nat) : Prop := it.current = rest.headD 0

theorem vals_of_lnk {m : AMap K Nat} {l : GoList (K × V)} {ids : List Nat} {es : List (K × V)}
    (h : Lnk Prod.fst m l ids es) : es = ids.filterMap l.val := by
  have := h.vals
  have h2 := congrArg (List.filterMap id) this
  simpa [List.filterMap_map] using h2.symm

theorem take_pad {α : Type} (l : List (Option α)) (n : Nat) :
    (l ++ List.replicate n none).take n = (l ++ List.replicate (n + 1) none).take n := by
  rw [List.replicate_succ', ← List.append_assoc,
    List.take_append_of_le_length (l₁ := l ++ List.replicate n none) (by simp)]

/-- `n` calls from a position with `rest` still ahead. -/
theorem nexts_front {t : LHM K V} {done rest : List Nat} (h : Repr t.list (done ++ rest)) (n : Nat) :
    nexts t n ⟨rest.headD 0, true⟩ =
      (rest.map t.list.val ++ List.replicate n none).take n := by
  induction n generalizing done rest with
  | zero => simp [nexts]
  | succ n ih =>
    cases rest with
    | nil =>
      have := ih (done := done) (rest := []) h
      simp only [List.headD_nil, List.map_nil, List.nil_append] at this ⊢
      simp only [nexts, next]
      simp only [ne_eq, not_true_eq_false, if_false, this]
      simp [List.replicate_succ]
    | cons i rest =>
      have hi : i ≠ 0 := h.pos i (by simp)
      have hn := elemNext_eq h
      have h' : Repr t.list ((done ++ [i]) ++ rest) := by simpa using h
      have := ih h'
      simp only [nexts, next, List.headD_cons]
      simp only [ne_eq, hi, not_false_eq_true, if_true, hn, this]
      simp only [List.map_cons, List.cons_append, List.take_succ_cons, List.cons.injEq, true_and]
      exact take_pad _ _

theorem nexts_back {t : LHM K V} {done rest : List Nat} (h : Repr t.list (rest.reverse ++ done)) (n : Nat) :
    nexts t n ⟨rest.headD 0, false⟩ =
      (rest.map t.list.val ++ List.replicate n none).take n := by
  induction n generalizing done rest with
  | zero => simp [nexts]
  | succ n ih =>
    cases rest with
    | nil =>
      have := ih (done := done) (rest := []) h
      simp only [List.headD_nil, List.map_nil, List.nil_append] at this ⊢
      simp only [nexts, next]
      simp only [ne_eq, not_true_eq_false, if_false, this]
      simp [List.replicate_succ]
    | cons i rest =>
      have h1 : Repr t.list (rest.reverse ++ i :: done) := by simpa using h
      have hi : i ≠ 0 := h1.pos i (by simp)
      have hn : t.list.elemPrev i = rest.headD 0 := by
        rw [elemPrev_eq h1]
        cases rest <;> simp
      have := ih h1
      simp only [nexts, next, List.headD_cons]
      simp only [ne_eq, hi, not_false_eq_true, if_true, Bool.false_eq_true, if_false, hn, this]
      simp only [List.map_cons, List.cons_append, List.take_succ_cons, List.cons.injEq, true_and]
      exact take_pad _ _

theorem nexts_at_end (t : LHM K V) (n : Nat) (b : Bool) : nexts t n ⟨0, b⟩ = List.replicate n none := by
  induction n with
  | zero => rfl
  | succ n ih => simp only [nexts, next]; simp [ih, List.replicate_succ]

theorem nextsDeleting_end (del : K → V → Bool) (t : LHM K V) (n : Nat) (b : Bool) :
    nextsDeleting del n t ⟨0, b⟩ = (List.replicate n none, t) := by
  induction n with
  | zero => rfl
  | succ n ih =>
    have h0 : next t ⟨0, b⟩ = (⟨0, b⟩, none) := by simp [next]
    simp only [nextsDeleting, h0, ih]; simp [List.replicate_succ]

/-- Iteration (either direction) with deletion of returned keys. `rest` are the ids still ahead in walk
direction, `erest` their entries; `done`/`edone` are what is left of the visited part. -/
theorem nextsDeleting_spec (del : K → V → Bool) (b : Bool) (n : Nat) {t : LHM K V} {rest done : List Nat}
    {erest edone : List (K × V)}
    (h : Lnk Prod.fst t.m t.list (if b then done.reverse ++ rest else rest.reverse ++ done)
      (if b then edone.reverse ++ erest else erest.reverse ++ edone))
    (hv : rest.map t.list.val = erest.map some) (hd : done.map t.list.val = edone.map some) :
    (nextsDeleting del n t ⟨rest.headD 0, b⟩).1 = (erest.map some ++ List.replicate n none).take n := by
  induction n generalizing t rest erest done edone with
  | zero => simp [nextsDeleting]
  | succ n ih =>
    cases rest with
    | nil =>
      obtain rfl : erest = [] := by simpa using hv.symm
      rw [List.headD_nil, nextsDeleting_end]; simp
    | cons i rest =>
      obtain ⟨a, erest', rfl, ha, hv'⟩ := List.map_eq_cons_iff.1 hv.symm
      obtain ⟨k, v⟩ := a
      have hval : t.list.val i = some (k, v) := ha.symm
      have hi : i ≠ 0 := by
        apply h.repr.pos i
        cases b <;> simp
      have hnext : next t ⟨i, b⟩ = (⟨rest.headD 0, b⟩, some (k, v)) := by
        cases b with
        | true =>
          have h1 : Repr t.list (done.reverse ++ i :: rest) := by simpa using h.repr
          simp [next, hi, elemNext_eq h1, hval]
        | false =>
          have h1 : Repr t.list (rest.reverse ++ i :: done) := by simpa using h.repr
          have hn : t.list.elemPrev i = rest.headD 0 := by
            rw [elemPrev_eq h1]
            cases rest <;> simp
          simp [next, hi, hn, hval]
      rw [List.headD_cons]
      have hrec : ∀ t' : LHM K V, ∀ done' edone',
          Lnk Prod.fst t'.m t'.list (if b then done'.reverse ++ rest else rest.reverse ++ done')
            (if b then edone'.reverse ++ erest' else erest'.reverse ++ edone') →
          t'.list.val = t.list.val → done'.map t.list.val = edone'.map some →
          (nextsDeleting del n t' ⟨rest.headD 0, b⟩).1 = (erest'.map some ++ List.replicate n none).take n := by
        intro t' done' edone' hl he hdd
        exact ih hl (by rw [he]; exact hv'.symm) (by rw [he]; exact hdd)
      have hfin : ∀ t' : LHM K V, (nextsDeleting del n t' ⟨rest.headD 0, b⟩).1 = (erest'.map some ++ List.replicate n none).take n →
          some (k, v) :: (nextsDeleting del n t' ⟨rest.headD 0, b⟩).1 =
            (((k, v) :: erest').map some ++ List.replicate (n + 1) none).take (n + 1) := by
        intro t' ht
        rw [ht, List.map_cons, List.cons_append, List.take_succ_cons, take_pad]
      simp only [nextsDeleting, hnext]
      by_cases hdel : del k v = true
      · rw [if_pos hdel]
        have hload : t.m.load k = some i := (h.map k i).2 ⟨by cases b <;> simp, (k, v), hval, rfl⟩
        have hdt : delete t k = { t with list := t.list.remove i, m := t.m.delete k, count := t.count - 1 } := by
          simp [delete, hload]
        apply hfin
        apply hrec (delete t k) done edone
        · rw [hdt]
          cases b with
          | true =>
            have h1 : Lnk Prod.fst t.m t.list (done.reverse ++ i :: rest) (edone.reverse ++ (k, v) :: erest') := by simpa using h
            have := h1.remove hval (by rw [List.map_reverse, hd, List.map_reverse]) hv'.symm
            simpa using this
          | false =>
            have h1 : Lnk Prod.fst t.m t.list (rest.reverse ++ i :: done) (erest'.reverse ++ (k, v) :: edone) := by simpa using h
            have := h1.remove hval (by rw [List.map_reverse, ← hv', List.map_reverse]) hd
            simpa using this
        · rw [hdt]; exact remove_val i
        · exact hd
      · rw [if_neg hdel]
        apply hfin
        apply hrec t (i :: done) ((k, v) :: edone)
        · cases b <;> simpa using h
        · rfl
        · simp [hval, hd]

end Gofer.LinkedHashMap
