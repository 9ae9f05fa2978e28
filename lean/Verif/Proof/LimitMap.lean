import Verif.Model.LimitMap
import Verif.Proof.Linked
import Verif.Proof.Assoc

namespace Gofer.LimitMap
open GoList
open Gofer.Spec.LimitMap (Op Res)
open Gofer.Spec.Assoc
variable {K V : Type} [DecidableEq K]

/-- Refinement relation. -/
structure Inv (t : LM K V) (es : List (K × V)) : Prop where
  lnk : ∃ ids, Lnk Prod.fst t.cache t.order ids es
  bound : (es.length : Int) ≤ max (t.capacity + 1) 1

theorem inv_new (cap : Int) : Inv (new cap : LM K V) [] :=
  ⟨⟨[], Lnk.new⟩, by simp only [List.length_nil, new]; push_cast; omega⟩

theorem get_spec {t : LM K V} {es : List (K × V)} (h : Inv t es) (k : K) : get t k = find k es := by
  obtain ⟨ids, hl⟩ := h.lnk
  unfold get
  cases hk : t.cache.load k with
  | none => exact (find_none.2 (hl.load_none.1 hk)).symm
  | some i =>
    obtain ⟨xs, ys, exs, a, eys, rfl, rfl, h3, h4, h5, h6⟩ := hl.load_some hk
    obtain ⟨k', v'⟩ := a
    simp only at h4; subst h4
    rw [(find_split hl.nodup).1]
    simp [h3]

theorem del_spec {t : LM K V} {es : List (K × V)} (h : Inv t es) (k : K) :
    Inv (del t k) (without k es) ∧ (del t k).capacity = t.capacity := by
  obtain ⟨ids, hl⟩ := h.lnk
  have hb := h.bound
  unfold del
  cases hk : t.cache.load k with
  | none =>
    rw [without_of_not_mem (hl.load_none.1 hk)]
    exact ⟨h, rfl⟩
  | some i =>
    obtain ⟨xs, ys, exs, a, eys, rfl, rfl, h3, h4, h5, h6⟩ := hl.load_some hk
    obtain ⟨k', v'⟩ := a
    simp only at h4; subst h4
    rw [(find_split hl.nodup).2]
    refine ⟨⟨⟨_, hl.remove h3 h5 h6⟩, ?_⟩, rfl⟩
    simp only [List.length_append, List.length_cons] at hb ⊢; push_cast at hb ⊢; omega

theorem removeMulti_spec (ks : List K) {t : LM K V} {es : List (K × V)} (h : Inv t es) :
    Inv (removeMulti t ks) (es.filter fun p => p.1 ∉ ks) ∧ (removeMulti t ks).capacity = t.capacity := by
  induction ks generalizing t es with
  | nil => simpa [removeMulti] using h
  | cons k ks ih =>
    obtain ⟨h1, h2⟩ := del_spec h k
    obtain ⟨h3, h4⟩ := ih h1
    refine ⟨?_, by rw [← h2, ← h4]; rfl⟩
    have : es.filter (fun p => decide (p.1 ∉ k :: ks)) = (without k es).filter (fun p => decide (p.1 ∉ ks)) := by
      rw [without, List.filter_filter]
      apply List.filter_congr
      intro x _
      simp [Bool.and_comm]
    rw [this]; exact h3

theorem put_spec {t : LM K V} {es : List (K × V)} (h : Inv t es) (k : K) (v : V) :
    Inv (put t k v).1 (Spec.LimitMap.put t.capacity k v es) ∧ (put t k v).1.capacity = t.capacity ∧
      (put t k v).2 = find k es := by
  obtain ⟨ids, hl⟩ := h.lnk
  have hb := h.bound
  cases hk : t.cache.load k with
  | some i =>
    obtain ⟨xs, ys, exs, a, eys, rfl, rfl, h3, h4, h5, h6⟩ := hl.load_some hk
    obtain ⟨k', v'⟩ := a
    simp only at h4; subst h4
    obtain ⟨hf, hw⟩ := find_split hl.nodup
    obtain ⟨s1, s2, s3⟩ := hl.setVal (b := (k', v)) h3 rfl h5 h6
    have hm := s1.moveToFront (by simp [GoList.setVal]) s2 s3
    have hput : put t k' v = ({ t with order := (t.order.setVal i (k', v)).moveToFront i }, some v') := by
      simp only [put, hk, h3]
    rw [hput, hf]
    simp only [Spec.LimitMap.put, hf, hw]
    refine ⟨⟨⟨_, hm⟩, ?_⟩, by simp⟩
    simp only [List.length_append, List.length_cons] at hb ⊢; omega
  | none =>
    have hnk : k ∉ es.map Prod.fst := hl.load_none.1 hk
    have hf : find k es = none := find_none.2 hnk
    have hsz := hl.size_eq
    simp only [Spec.LimitMap.put, hf]
    by_cases hc : (es.length : Int) > t.capacity
    · rw [if_pos hc]
      by_cases hne : es = []
      · subst hne
        have hb0 := hl.back_none
        have hput : put t k v = ({ t with order := (t.order.pushFront (k, v)).1, cache := t.cache.store k (t.order.pushFront (k, v)).2 }, none) := by
          simp only [put, hk, hsz, hc, if_true, hb0, ne_eq, not_true_eq_false, if_false]
        rw [hput]
        refine ⟨⟨⟨_, hl.push (k, v) hnk⟩, ?_⟩, rfl, rfl⟩
        simp only [List.dropLast_nil, List.length_cons, List.length_nil]; push_cast; omega
      · obtain ⟨xs, i, exs, a, rfl, rfl, e3, e4, e5, e6⟩ := hl.back_some hne
        have hr := hl.remove e5 e6 rfl
        simp only [List.append_nil] at hr
        have hnk' : k ∉ exs.map Prod.fst := by
          intro hc; apply hnk; rw [List.map_append, List.mem_append]; exact Or.inl hc
        have hput : put t k v = ({ t with order := ((t.order.remove i).pushFront (k, v)).1, cache := (t.cache.delete a.1).store k ((t.order.remove i).pushFront (k, v)).2 }, none) := by
          simp only [put, hk, hsz, hc, if_true, e3, ne_eq, e4, not_false_eq_true, remove_val, e5]
        rw [hput]
        refine ⟨⟨⟨_, by simpa using hr.push (k, v) hnk'⟩, ?_⟩, rfl, rfl⟩
        simp only [List.length_append, List.length_cons, List.length_nil, List.dropLast_concat] at hb hc ⊢
        push_cast at hb hc ⊢; omega
    · rw [if_neg hc]
      have hput : put t k v = ({ t with order := (t.order.pushFront (k, v)).1, cache := t.cache.store k (t.order.pushFront (k, v)).2 }, none) := by
        simp only [put, hk, hsz, hc, if_false]
      rw [hput]
      refine ⟨⟨⟨_, hl.push (k, v) hnk⟩, ?_⟩, rfl, rfl⟩
      simp only [List.length_cons]; push_cast; omega

theorem step_spec (zv : V) {t : LM K V} {es : List (K × V)} (h : Inv t es) (o : Op K V) :
    (step zv t o).2 = (Spec.LimitMap.step zv t.capacity es o).2 ∧
    Inv (step zv t o).1 (Spec.LimitMap.step zv t.capacity es o).1 ∧
    (step zv t o).1.capacity = t.capacity := by
  cases o with
  | put k v =>
    obtain ⟨h1, h2, h3⟩ := put_spec h k v
    refine ⟨?_, h1, h2⟩
    simp only [step, h3, Spec.LimitMap.step]
    cases find k es <;> rfl
  | get k =>
    refine ⟨?_, h, rfl⟩
    simp only [step, get_spec h, Spec.LimitMap.step]
    cases find k es <;> rfl
  | del k => exact ⟨rfl, (del_spec h k).1, (del_spec h k).2⟩
  | removeMulti ks => exact ⟨rfl, (removeMulti_spec ks h).1, (removeMulti_spec ks h).2⟩
  | len =>
    obtain ⟨ids, hl⟩ := h.lnk
    exact ⟨by simp only [step, len, hl.size_eq, Spec.LimitMap.step], h, rfl⟩

theorem run_spec (zv : V) (cap : Int) {t : LM K V} {es : List (K × V)} (h : Inv t es) (hc : t.capacity = cap)
    (os : List (Op K V)) :
    run zv t os = Spec.LimitMap.run zv cap es os ∧ ∃ es', Inv (final zv t os) es' ∧ (final zv t os).capacity = cap := by
  induction os generalizing t es with
  | nil => exact ⟨rfl, es, h, hc⟩
  | cons o os ih =>
    obtain ⟨h1, h2, h3⟩ := step_spec zv h o
    rw [hc] at h1 h2 h3
    obtain ⟨h4, h5⟩ := ih h2 h3
    exact ⟨by simp only [run, Spec.LimitMap.run, h1, h4], h5⟩

end Gofer.LimitMap
