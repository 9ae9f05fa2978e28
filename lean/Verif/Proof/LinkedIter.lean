import Verif.Model.LinkedIter
import Verif.Proof.LinkedHashMap
import Mathlib.Data.List.Forall2

/-! # Iterators over a changing `LinkedHashMap` -/
namespace Gofer.GoList
variable {α : Type}

/-- How one call changes the heap: elements outside the ring keep their pointers, values of allocated
elements stay, the ring gets only new elements, and the elements that leave the ring are not owned. -/
structure Evo (l l' : GoList α) (ids ids' : List Nat) : Prop where
  fresh : l.fresh ≤ l'.fresh
  keep : ∀ i, i < l.fresh → i ∉ root :: ids → l'.next i = l.next i ∧ l'.prev i = l.prev i ∧ l'.owned i = l.owned i
  val : ∀ i, i < l.fresh → l'.val i = l.val i
  sub : ∀ i ∈ ids', i < l.fresh → i ∈ ids
  gone : ∀ i ∈ ids, i ∉ ids' → l'.owned i = false

theorem Evo.refl (l : GoList α) (ids : List Nat) : Evo l l ids ids :=
  ⟨Nat.le_refl _, fun _ _ _ => ⟨rfl, rfl, rfl⟩, fun _ _ => rfl, fun _ h _ => h, fun _ h1 h2 => absurd h1 h2⟩

theorem Evo.trans {l l' l'' : GoList α} {ids ids' ids'' : List Nat} (h : Repr l ids) (h1 : Evo l l' ids ids')
    (h2 : Evo l' l'' ids' ids'') : Evo l l'' ids ids'' := by
  have hr : root ∉ ids := (List.nodup_cons.1 h.nodup).1
  refine ⟨Nat.le_trans h1.fresh h2.fresh, ?_, ?_, ?_, ?_⟩
  · intro i hi hn
    have hn' : i ∉ root :: ids' := by
      intro hm
      rcases List.mem_cons.1 hm with rfl | hm
      · exact hn (by simp)
      · exact hn (List.mem_cons_of_mem _ (h1.sub i hm hi))
    obtain ⟨a, b, c⟩ := h1.keep i hi hn
    obtain ⟨a', b', c'⟩ := h2.keep i (Nat.lt_of_lt_of_le hi h1.fresh) hn'
    exact ⟨a'.trans a, b'.trans b, c'.trans c⟩
  · intro i hi
    exact (h2.val i (Nat.lt_of_lt_of_le hi h1.fresh)).trans (h1.val i hi)
  · intro i hi hlt
    exact h1.sub i (h2.sub i hi (Nat.lt_of_lt_of_le hlt h1.fresh)) hlt
  · intro i hi hn
    by_cases hm : i ∈ ids'
    · exact h2.gone i hm hn
    · have hlt := h.lt i hi
      have hne : i ≠ root := by rintro rfl; exact hr hi
      rw [(h2.keep i (Nat.lt_of_lt_of_le hlt h1.fresh) (by simp [hne, hm])).2.2]
      exact h1.gone i hi hm

theorem hd_mem (xs : List Nat) : hd xs ∈ root :: xs := by cases xs <;> simp [hd]

theorem evo_pushFront {l : GoList α} {ids : List Nat} (h : Repr l ids) (v : α) :
    Evo l (l.pushFront v).1 ids ((l.pushFront v).2 :: ids) := by
  have hn : l.next root ∈ root :: ids := by rw [h.fwd.head]; exact hd_mem ids
  refine ⟨by rw [pushFront_fresh]; omega, ?_, ?_, ?_, ?_⟩
  · intro i hi hni
    have h1 : i ≠ l.fresh := by omega
    have h2 : i ≠ root := by rintro rfl; exact hni (by simp)
    have h3 : i ≠ l.next root := by rintro rfl; exact hni hn
    refine ⟨?_, ?_, ?_⟩
    · simp only [pushFront, insert]
      rw [upd_ne _ _ h2, upd_ne _ _ h1]
    · simp only [pushFront, insert]
      rw [upd_ne _ _ h3, upd_ne _ _ h1]
    · rw [pushFront_owned, upd_ne _ _ h1]
  · intro i hi
    rw [pushFront_fst_val, upd_ne _ _ (by omega)]
  · intro i hi hlt
    rcases List.mem_cons.1 hi with rfl | hi
    · rw [pushFront_snd] at hlt; omega
    · exact hi
  · intro i hi hni
    exact absurd (List.mem_cons_of_mem _ hi) hni

theorem ends_mem {l : GoList α} {xs ys : List Nat} {e : Nat} (h : Repr l (xs ++ e :: ys)) :
    l.next e ∈ root :: (xs ++ e :: ys) ∧ l.prev e ∈ root :: (xs ++ e :: ys) := by
  constructor
  · rw [h.fwd.at]
    have := hd_mem ys
    simp only [List.mem_cons, List.mem_append] at this ⊢
    tauto
  · have hb := h.bwd
    rw [List.reverse_append, List.reverse_cons, List.append_assoc, List.singleton_append] at hb
    rw [hb.at]
    have := hd_mem xs.reverse
    simp only [List.mem_cons, List.mem_append, List.mem_reverse] at this ⊢
    tauto

theorem evo_remove {l : GoList α} {xs ys : List Nat} {e : Nat} (h : Repr l (xs ++ e :: ys)) :
    Evo l (l.remove e) (xs ++ e :: ys) (xs ++ ys) := by
  obtain ⟨hn, hp⟩ := ends_mem h
  rw [remove, if_pos (h.owned e (by simp))]
  refine ⟨Nat.le_refl _, ?_, fun _ _ => rfl, ?_, ?_⟩
  · intro i hi hni
    have h1 : i ≠ e := by rintro rfl; exact hni (by simp)
    have h2 : i ≠ l.next e := by rintro rfl; exact hni hn
    have h3 : i ≠ l.prev e := by rintro rfl; exact hni hp
    simp only [removeElem]
    rw [upd_ne _ _ h1, upd_ne _ _ h1, upd_ne _ _ h1, upd_ne _ _ h2, upd_ne _ _ h3]
    exact ⟨rfl, rfl, rfl⟩
  · intro i hi _
    simp only [List.mem_append, List.mem_cons] at hi ⊢; tauto
  · intro i hi hni
    have : i = e := by
      simp only [List.mem_append, List.mem_cons] at hi hni; tauto
    subst this
    simp [removeElem]

theorem evo_moveToFront {l : GoList α} {xs ys : List Nat} {e : Nat} (h : Repr l (xs ++ e :: ys)) :
    Evo l (l.moveToFront e) (xs ++ e :: ys) (e :: (xs ++ ys)) := by
  obtain ⟨hn, hp⟩ := ends_mem h
  have hmem : ∀ i, i ∈ e :: (xs ++ ys) ↔ i ∈ xs ++ e :: ys := by
    intro i; simp only [List.mem_append, List.mem_cons]; tauto
  refine ⟨Nat.le_of_eq (moveToFront_fresh e).symm, ?_, fun _ _ => by rw [moveToFront_val], ?_, ?_⟩
  · intro i hi hni
    have h1 : i ≠ e := by rintro rfl; exact hni (by simp)
    have h2 : i ≠ l.next e := by rintro rfl; exact hni hn
    have h3 : i ≠ l.prev e := by rintro rfl; exact hni hp
    have h4 : i ≠ root := by rintro rfl; exact hni (by simp)
    have h6 : l.next root ∈ root :: (xs ++ e :: ys) := by rw [h.fwd.head]; exact hd_mem _
    have h5 : i ≠ upd l.next (l.prev e) (l.next e) root := by
      rintro rfl
      by_cases hr : root = l.prev e
      · rw [← hr, upd_same] at hni; exact hni hn
      · rw [upd_ne _ _ hr] at hni
        exact hni h6
    rw [moveToFront]
    split
    · exact ⟨rfl, rfl, rfl⟩
    · rw [move]
      split
      · exact ⟨rfl, rfl, rfl⟩
      · dsimp only
        rw [upd_ne _ _ h4, upd_ne _ _ h1, upd_ne _ _ h3, upd_ne _ _ h5, upd_ne _ _ h1, upd_ne _ _ h2]
        exact ⟨rfl, rfl, rfl⟩
  · intro i hi _; exact (hmem i).1 hi
  · intro i hi hni; exact absurd ((hmem i).2 hi) hni

end Gofer.GoList

namespace Gofer.LinkedHashMap
open GoList
open Gofer.Spec.Recency (Op Res)
open Gofer.Spec.Assoc
open Gofer.Spec.Cursor (Cur Act Out dir since first change replaces)
variable {K V : Type} [DecidableEq K]

/-- The invariant with the ring exposed. -/
structure Ring (t : LHM K V) (ids : List Nat) (es : List (K × V)) : Prop where
  lnk : Lnk Prod.fst t.m t.list ids es
  count : t.count = es.length
  bound : (es.length : Int) ≤ max t.limit 0

theorem Ring.inv {t : LHM K V} {ids : List Nat} {es : List (K × V)} (h : Ring t ids es) : Inv t es :=
  ⟨⟨ids, h.lnk⟩, h.count, h.bound⟩

/-- The ring is determined by the heap. -/
theorem walk_unique {f : Nat → Nat} {a : Nat} {xs ys : List Nat} (hx : Walk f a xs) (hy : Walk f a ys)
    (hrx : root ∉ xs) (hry : root ∉ ys) : xs = ys := by
  induction xs generalizing a ys with
  | nil =>
    cases ys with
    | nil => rfl
    | cons y ys => exact absurd (by rw [← hy.1, show f a = root from hx]; simp) hry
  | cons x xs ih =>
    cases ys with
    | nil => exact absurd (by rw [← hx.1, show f a = root from hy]; simp) hrx
    | cons y ys =>
      have : x = y := hx.1.symm.trans hy.1
      subst this
      rw [ih hx.2 hy.2 (fun h => hrx (List.mem_cons_of_mem _ h)) (fun h => hry (List.mem_cons_of_mem _ h))]

theorem repr_unique {α : Type} {l : GoList α} {xs ys : List Nat} (hx : Repr l xs) (hy : Repr l ys) : xs = ys :=
  walk_unique hx.fwd hy.fwd (List.nodup_cons.1 hx.nodup).1 (List.nodup_cons.1 hy.nodup).1

/-- How `Put` changes the heap. -/
theorem putCore_evo {t : LHM K V} {ids : List Nat} {es : List (K × V)} (h : Ring t ids es) (k : K) (v : V) :
    ∃ ids', Repr (putCore t k v).1.list ids' ∧ Evo t.list (putCore t k v).1.list ids ids' ∧
      (∀ i ∈ ids', i ∈ ids ∨ (putCore t k v).1.list.val i = some (k, v)) ∧
      (∀ i ∈ ids, ∀ w, t.list.val i = some (k, w) → i ∉ ids') := by
  have hl := h.lnk
  have hp0 := evo_pushFront hl.repr (k, v)
  have hr0 := repr_pushFront hl.repr (k, v)
  have hv0 : (t.list.pushFront (k, v)).1.val (t.list.pushFront (k, v)).2 = some (k, v) := by
    rw [pushFront_fst_val, pushFront_snd]; simp
  cases hk : t.m.load k with
  | none =>
    have hnk : k ∉ es.map Prod.fst := hl.load_none.1 hk
    have hno : ∀ i ∈ ids, ∀ w, t.list.val i = some (k, w) → False := by
      intro i hi w hw
      have := (hl.map k i).2 ⟨hi, (k, w), hw, rfl⟩
      rw [hk] at this; cases this
    have hp := hl.push (k, v) hnk
    by_cases hlim : t.count + 1 > t.limit
    · obtain ⟨xs, i, exs, a, e1, e2, e3, e4, e5, e6⟩ := hp.back_some (by simp)
      have hput : (putCore t k v).1.list = (t.list.pushFront (k, v)).1.remove i := by
        simp only [putCore, AMap.swap, hk, hlim, if_true, e3, ne_eq, e4, not_false_eq_true, remove_val, e5, AMap.loadAndDelete]
      rw [hput]
      rw [e1] at hr0
      have hrm := repr_remove hr0
      have hev := evo_remove hr0
      rw [List.append_nil] at hrm hev
      rw [← e1] at hev
      refine ⟨xs, hrm, hp0.trans hl.repr hev, ?_, ?_⟩
      · intro j hj
        have : j ∈ (t.list.pushFront (k, v)).2 :: ids := by rw [e1]; simp [hj]
        rcases List.mem_cons.1 this with rfl | hm
        · exact Or.inr (by rw [remove_val]; exact hv0)
        · exact Or.inl hm
      · intro j hj w hw; exact (hno j hj w hw).elim
    · have hput : (putCore t k v).1.list = (t.list.pushFront (k, v)).1 := by
        simp only [putCore, AMap.swap, hk, hlim, if_false]
      rw [hput]
      refine ⟨_, hr0, hp0, ?_, ?_⟩
      · intro j hj
        rcases List.mem_cons.1 hj with rfl | hm
        · exact Or.inr hv0
        · exact Or.inl hm
      · intro j hj w hw; exact (hno j hj w hw).elim
  | some i =>
    obtain ⟨xs, ys, exs, a, eys, rfl, rfl, h3, h4, h5, h6⟩ := hl.load_some hk
    have hput : (putCore t k v).1.list = (t.list.pushFront (k, v)).1.remove i := by
      simp only [putCore, AMap.swap, hk]
    rw [hput]
    have hr1 : Repr (t.list.pushFront (k, v)).1 (((t.list.pushFront (k, v)).2 :: xs) ++ i :: ys) := hr0
    have hrm := repr_remove hr1
    have hev := evo_remove hr1
    refine ⟨_, hrm, hp0.trans hl.repr hev, ?_, ?_⟩
    · intro j hj
      rw [List.cons_append] at hj
      rcases List.mem_cons.1 hj with rfl | hm
      · exact Or.inr (by rw [remove_val]; exact hv0)
      · left; simp only [List.mem_append, List.mem_cons] at hm ⊢; tauto
    · intro j hj w hw
      have hji : j = i := by
        have := (hl.map k j).2 ⟨hj, (k, w), hw, rfl⟩
        rw [hk] at this; exact (Option.some.inj this).symm
      subst hji
      have hn := (List.nodup_cons.1 hr1.nodup).2
      exact (List.nodup_cons.1 (List.nodup_middle.1 hn)).1

/-- How a call other than `Clear` changes the heap. -/
theorem step_evo (zk : K) (zv : V) {t : LHM K V} {ids : List Nat} {es : List (K × V)} (h : Ring t ids es)
    (o : Op K V) (hc : o ≠ .clear) :
    ∃ ids', Repr (step zk zv t o).1.list ids' ∧ Evo t.list (step zk zv t o).1.list ids ids' ∧
      (∀ i ∈ ids', i ∈ ids ∨ ∃ k v, replaces k o = true ∧ (step zk zv t o).1.list.val i = some (k, v)) ∧
      (∀ i ∈ ids, ∀ k w, t.list.val i = some (k, w) → replaces k o = true → i ∉ ids') := by
  have hl := h.lnk
  have same : ∀ {t' : LHM K V}, t' = t → (∀ k, replaces k o = false) →
      ∃ ids', Repr t'.list ids' ∧ Evo t.list t'.list ids ids' ∧
      (∀ i ∈ ids', i ∈ ids ∨ ∃ k v, replaces k o = true ∧ t'.list.val i = some (k, v)) ∧
      (∀ i ∈ ids, ∀ k w, t.list.val i = some (k, w) → replaces k o = true → i ∉ ids') := by
    rintro t' rfl hf
    exact ⟨ids, hl.repr, Evo.refl _ _, fun i hi => Or.inl hi, fun i hi k w hw hr => by rw [hf] at hr; cases hr⟩
  cases o with
  | put k v =>
    obtain ⟨ids', h1, h2, h3, h4⟩ := putCore_evo h k v
    refine ⟨ids', h1, h2, ?_, ?_⟩
    · intro i hi
      rcases h3 i hi with h5 | h5
      · exact Or.inl h5
      · exact Or.inr ⟨k, v, by simp [replaces], h5⟩
    · intro i hi k' w hw hr
      have : k = k' := by simpa [replaces] using hr
      subst this
      exact h4 i hi w hw
  | loadOrStore k v =>
    obtain ⟨ids', h1, h2, h3, h4⟩ := putCore_evo h k v
    have hs : (step zk zv t (.loadOrStore k v)).1 = (putCore t k v).1 := by
      simp only [step, loadOrStore]; split <;> rfl
    rw [hs]
    refine ⟨ids', h1, h2, ?_, ?_⟩
    · intro i hi
      rcases h3 i hi with h5 | h5
      · exact Or.inl h5
      · exact Or.inr ⟨k, v, by simp [replaces], h5⟩
    · intro i hi k' w hw hr
      have : k = k' := by simpa [replaces] using hr
      subst this
      exact h4 i hi w hw
  | get k => exact same rfl (fun _ => rfl)
  | back => exact same rfl (fun _ => rfl)
  | front => exact same rfl (fun _ => rfl)
  | len => exact same rfl (fun _ => rfl)
  | clear => exact absurd rfl hc
  | delete k =>
    show ∃ ids', Repr (delete t k).list ids' ∧ Evo t.list (delete t k).list ids ids' ∧
      (∀ i ∈ ids', i ∈ ids ∨ ∃ k' v, replaces k' (Op.delete k : Op K V) = true ∧ (delete t k).list.val i = some (k', v)) ∧ _
    unfold delete
    cases hk : t.m.load k with
    | none =>
      refine ⟨ids, hl.repr, Evo.refl _ _, fun i hi => Or.inl hi, ?_⟩
      intro i hi k' w hw hr
      have : k = k' := by simpa [replaces] using hr
      subst this
      have := (hl.map k i).2 ⟨hi, (k, w), hw, rfl⟩
      rw [hk] at this; cases this
    | some i =>
      obtain ⟨xs, ys, exs, a, eys, rfl, rfl, h3, h4, h5, h6⟩ := hl.load_some hk
      refine ⟨_, repr_remove hl.repr, evo_remove hl.repr, ?_, ?_⟩
      · intro j hj
        left; simp only [List.mem_append, List.mem_cons] at hj ⊢; tauto
      · intro j hj k' w hw hr
        have : k = k' := by simpa [replaces] using hr
        subst this
        have hji : j = i := by
          have := (hl.map k j).2 ⟨hj, (k, w), hw, rfl⟩
          rw [hk] at this; exact (Option.some.inj this).symm
        subst hji
        have hn := (List.nodup_cons.1 hl.repr.nodup).2
        exact (List.nodup_cons.1 (List.nodup_middle.1 hn)).1
  | moveToFront k =>
    show ∃ ids', Repr (moveToFront t k).list ids' ∧ Evo t.list (moveToFront t k).list ids ids' ∧
      (∀ i ∈ ids', i ∈ ids ∨ ∃ k' v, replaces k' (Op.moveToFront k : Op K V) = true ∧ (moveToFront t k).list.val i = some (k', v)) ∧ _
    unfold LinkedHashMap.moveToFront
    cases hk : t.m.load k with
    | none =>
      exact ⟨ids, hl.repr, Evo.refl _ _, fun i hi => Or.inl hi, fun i hi k' w hw hr => by simp [replaces] at hr⟩
    | some i =>
      obtain ⟨xs, ys, exs, a, eys, rfl, rfl, h3, h4, h5, h6⟩ := hl.load_some hk
      refine ⟨_, repr_moveToFront hl.repr, evo_moveToFront hl.repr, ?_, fun i hi k' w hw hr => by simp [replaces] at hr⟩
      intro j hj
      left; simp only [List.mem_append, List.mem_cons] at hj ⊢; tauto

/-- An iterator stands where the cursor says. -/
def At' (t : LHM K V) (ids : List Nat) (it : Iter) : Cur K V → Prop
  | .stop => it.current = 0
  | .live k => it.current ∈ ids ∧ ∃ v, t.list.val it.current = some (k, v)
  | .gone k v => it.current ≠ 0 ∧ it.current < t.list.fresh ∧ it.current ∉ root :: ids ∧
      t.list.owned it.current = false ∧ t.list.val it.current = some (k, v)
  | .ghost [] => it.current = 0
  | .ghost (p :: ps) => ∃ gs, Walk (if it.front then t.list.next else t.list.prev) it.current gs ∧
      t.list.val it.current = some p ∧ gs.map t.list.val = ps.map some ∧
      ∀ g ∈ it.current :: gs, g ≠ 0 ∧ g < t.list.fresh ∧ g ∉ root :: ids ∧ t.list.owned g = true

theorem Walk.congr {f g : Nat → Nat} {a : Nat} {xs : List Nat} (h : Walk f a xs)
    (he : ∀ i ∈ a :: xs, g i = f i) : Walk g a xs := by
  induction xs generalizing a with
  | nil => exact (he a (by simp)).trans h
  | cons x xs ih =>
    exact ⟨(he a (by simp)).trans h.1, ih h.2 fun i hi => he i (List.mem_cons_of_mem _ hi)⟩

theorem Walk.tail {f : Nat → Nat} {a : Nat} {xs ys : List Nat} {e : Nat} (h : Walk f a (xs ++ e :: ys)) :
    Walk f e ys := by
  induction xs generalizing a with
  | nil => exact h.2
  | cons x xs ih => exact ih h.2

/-- A key of the entries has a place in the ring. -/
theorem find_iff {t : LHM K V} {ids : List Nat} {es : List (K × V)} (h : Ring t ids es) (k : K) (v : V) :
    find k es = some v ↔ ∃ i ∈ ids, t.list.val i = some (k, v) := by
  have hl := h.lnk
  constructor
  · intro hf
    have hm : k ∈ es.map Prod.fst := by
      apply Classical.byContradiction
      intro hn; rw [find_none.2 hn] at hf; cases hf
    obtain ⟨⟨k', w⟩, ha, hk⟩ := List.mem_map.1 hm
    simp only at hk; subst hk
    obtain ⟨xs, ys, rfl⟩ := List.append_of_mem ha
    rw [(find_split hl.nodup).1] at hf
    obtain rfl := Option.some.inj hf
    exact hl.mem_val (by simp)
  · rintro ⟨i, hi, hv⟩
    obtain ⟨xs, ys, exs, a, eys, rfl, rfl, h3, h4, h5⟩ := hl.split hi
    rw [hv] at h3
    obtain rfl := Option.some.inj h3
    exact (find_split hl.nodup).1

theorem val_unique {t : LHM K V} {ids : List Nat} {es : List (K × V)} (h : Ring t ids es) {k : K} {v w : V}
    {i j : Nat} (hi : i ∈ ids) (hj : j ∈ ids) (hv : t.list.val i = some (k, v)) (hw : t.list.val j = some (k, w)) :
    i = j := by
  have h1 := (h.lnk.map k i).2 ⟨hi, _, hv, rfl⟩
  have h2 := (h.lnk.map k j).2 ⟨hj, _, hw, rfl⟩
  rw [h1] at h2
  exact Option.some.inj h2

theorem since_split {k : K} {v : V} {exs eys : List (K × V)}
    (hn : ((exs ++ (k, v) :: eys).map Prod.fst).Nodup) : since k (exs ++ (k, v) :: eys) = (k, v) :: eys := by
  unfold since
  rw [List.dropWhile_append_of_pos]
  · simp
  · intro p hp
    have := (Lnk.keys_split (key := Prod.fst) hn).2
    simp only [List.map_append, List.mem_append, not_or] at this
    simp only [ne_eq, decide_not, Bool.not_eq_true', decide_eq_false_iff_not]
    rintro rfl
    exact this.1 (List.mem_map_of_mem hp)

theorem since_split_rev {k : K} {v : V} {exs eys : List (K × V)}
    (hn : ((exs ++ (k, v) :: eys).map Prod.fst).Nodup) :
    since k (exs ++ (k, v) :: eys).reverse = (k, v) :: exs.reverse := by
  rw [List.reverse_append, List.reverse_cons, List.append_assoc, List.singleton_append]
  apply since_split
  have : ((exs ++ (k, v) :: eys).reverse.map Prod.fst).Nodup := by
    rw [List.map_reverse, List.nodup_reverse]; exact hn
  rwa [List.reverse_append, List.reverse_cons, List.append_assoc, List.singleton_append] at this

/-- A cursor in a part of the heap that a call leaves alone stays. -/
theorem at_frame {t t' : LHM K V} {ids ids' : List Nat} {it : Iter} {c : Cur K V} (h : At' t ids it c)
    (hc : ∀ k, c ≠ .live k)
    (hf : t.list.fresh ≤ t'.list.fresh)
    (hk : ∀ i, i < t.list.fresh → i ∉ root :: ids →
      t'.list.next i = t.list.next i ∧ t'.list.prev i = t.list.prev i ∧ t'.list.owned i = t.list.owned i)
    (hv : ∀ i, i < t.list.fresh → t'.list.val i = t.list.val i)
    (hs : ∀ i ∈ ids', i < t.list.fresh → i ∈ ids) : At' t' ids' it c := by
  have hout : ∀ i, i < t.list.fresh → i ∉ root :: ids → i ∉ root :: ids' := by
    intro i hi hn hm
    rcases List.mem_cons.1 hm with rfl | hm
    · exact hn (by simp)
    · exact hn (List.mem_cons_of_mem _ (hs i hm hi))
  match c, h with
  | .stop, h => exact h
  | .live k, _ => exact absurd rfl (hc k)
  | .gone k v, ⟨h1, h2, h3, h4, h5⟩ =>
    exact ⟨h1, Nat.lt_of_lt_of_le h2 hf, hout _ h2 h3, (hk _ h2 h3).2.2.trans h4, (hv _ h2).trans h5⟩
  | .ghost [], h => exact h
  | .ghost (p :: ps), ⟨gs, h1, h2, h3, h4⟩ =>
    have h0 := h4 it.current (by simp)
    refine ⟨gs, ?_, (hv _ h0.2.1).trans h2, ?_, ?_⟩
    · apply Walk.congr h1
      intro i hi
      obtain ⟨_, b, d, _⟩ := h4 i hi
      have := hk i b d
      split
      · exact this.1
      · exact this.2.1
    · rw [← h3]
      apply List.map_congr_left
      intro i hi
      exact hv i (h4 i (List.mem_cons_of_mem _ hi)).2.1
    · intro g hg
      obtain ⟨a, b, d, e⟩ := h4 g hg
      exact ⟨a, Nat.lt_of_lt_of_le b hf, hout g b d, (hk g b d).2.2.trans e⟩

theorem change_stay {front : Bool} {es es' : List (K × V)} {o : Op K V} {c : Cur K V} (h : ∀ k, c ≠ .live k) :
    change front es es' o c = c := by
  cases c with
  | live k => exact absurd rfl (h k)
  | _ => rfl

/-- A call moves every cursor as specified. -/
theorem call_at (zk : K) (zv : V) {t : LHM K V} {ids : List Nat} {es : List (K × V)} (h : Ring t ids es) (o : Op K V) :
    ∃ ids', Ring (step zk zv t o).1 ids' (Spec.Recency.step zk zv t.limit es o).1 ∧
      ∀ it c, At' t ids it c →
        At' (step zk zv t o).1 ids' it (change it.front es (Spec.Recency.step zk zv t.limit es o).1 o c) := by
  have hl := h.lnk
  have hI := (step_spec zk zv h.inv o).2.1
  by_cases hc : o = .clear
  · subst hc
    refine ⟨[], ⟨hl.init, rfl, by simp [step, LinkedHashMap.clear, Spec.Recency.step]⟩, ?_⟩
    intro it c hat
    have hkeep : ∀ i, i < t.list.fresh → i ∉ root :: ids →
        t.list.init.next i = t.list.next i ∧ t.list.init.prev i = t.list.prev i ∧ t.list.init.owned i = t.list.owned i := by
      intro i _ hi
      have : i ≠ root := by rintro rfl; exact hi (by simp)
      simp only [GoList.init]
      rw [upd_ne _ _ this, upd_ne _ _ this]
      exact ⟨rfl, rfl, trivial⟩
    by_cases hlive : ∃ k, c = .live k
    · obtain ⟨k, rfl⟩ := hlive
      obtain ⟨hi, v, hv⟩ := hat
      have hf := (find_iff h k v).2 ⟨_, hi, hv⟩
      obtain ⟨xs, ys, exs, a, eys, rfl, rfl, h3, h4, h5⟩ := hl.split hi
      rw [hv] at h3
      obtain rfl := Option.some.inj h3
      have hroot : root ∉ xs ++ it.current :: ys := (List.nodup_cons.1 hl.repr.nodup).1
      have hgood : ∀ g ∈ xs ++ it.current :: ys, g ≠ 0 ∧ g < t.list.fresh ∧ g ∉ [root] ∧ t.list.owned g = true := by
        intro g hg
        refine ⟨hl.repr.pos g hg, hl.repr.lt g hg, ?_, hl.repr.owned g hg⟩
        rw [List.mem_singleton]; rintro rfl; exact hroot hg
      simp only [change, hf, Spec.Cursor.clears, if_true]
      cases hfr : it.front with
      | true =>
        rw [show dir true (exs ++ (k, v) :: eys) = exs ++ (k, v) :: eys from rfl, since_split hl.nodup]
        refine ⟨ys, ?_, hv, h5, fun g hg => hgood g (by simp only [List.mem_append]; exact Or.inr hg)⟩
        rw [hfr, if_pos rfl]
        show Walk (upd t.list.next root root) it.current ys
        apply Walk.frame
        · exact Walk.tail hl.repr.fwd
        · intro hm; exact hroot (by simp only [List.mem_append]; exact Or.inr hm)
      | false =>
        rw [show dir false (exs ++ (k, v) :: eys) = (exs ++ (k, v) :: eys).reverse from rfl, since_split_rev hl.nodup]
        have hb := hl.repr.bwd
        rw [List.reverse_append, List.reverse_cons, List.append_assoc, List.singleton_append] at hb
        refine ⟨xs.reverse, ?_, hv, ?_, ?_⟩
        · rw [hfr]
          show Walk (upd t.list.prev root root) it.current xs.reverse
          apply Walk.frame
          · exact Walk.tail hb
          · intro hm; apply hroot
            simp only [List.mem_cons, List.mem_reverse, List.mem_append] at hm ⊢; tauto
        · rw [List.map_reverse, List.map_reverse]
          exact congrArg List.reverse h4
        · intro g hg
          apply hgood g
          simp only [List.mem_cons, List.mem_reverse, List.mem_append] at hg ⊢; tauto
    · have hn : ∀ k, c ≠ .live k := fun k hk => hlive ⟨k, hk⟩
      rw [change_stay hn]
      exact at_frame hat hn (Nat.le_refl _) hkeep (fun _ _ => rfl) (fun i hi => by simp at hi)
  · obtain ⟨ids', hr, hev, hnew, hrep⟩ := step_evo zk zv h o hc
    obtain ⟨⟨ids'', hl''⟩, hcount, hbound⟩ := hI
    obtain rfl := repr_unique hr hl''.repr
    have hR : Ring (step zk zv t o).1 ids' (Spec.Recency.step zk zv t.limit es o).1 := ⟨hl'', hcount, hbound⟩
    refine ⟨ids', hR, ?_⟩
    intro it c hat
    by_cases hlive : ∃ k, c = .live k
    · obtain ⟨k, rfl⟩ := hlive
      obtain ⟨hi, v, hv⟩ := hat
      have hf := (find_iff h k v).2 ⟨_, hi, hv⟩
      have hlt := hl.repr.lt _ hi
      have hv' := (hev.val _ hlt).trans hv
      have hcl : Spec.Cursor.clears o = false := by
        cases o <;> first | rfl | exact absurd rfl hc
      have hgone : it.current ∉ ids' → At' (step zk zv t o).1 ids' it (.gone k v) := by
        intro hn
        refine ⟨hl.repr.pos _ hi, Nat.lt_of_lt_of_le hlt hev.fresh, ?_, hev.gone _ hi hn, hv'⟩
        intro hm
        rcases List.mem_cons.1 hm with hm | hm
        · exact (List.nodup_cons.1 hl.repr.nodup).1 (hm ▸ hi)
        · exact hn hm
      simp only [change, hf, hcl, Bool.false_eq_true, if_false]
      by_cases hre : replaces k o = true
      · rw [if_pos hre]
        exact hgone (hrep _ hi k v hv hre)
      · rw [if_neg hre]
        by_cases hs : (find k (Spec.Recency.step zk zv t.limit es o).1).isSome = true
        · rw [if_pos hs]
          obtain ⟨w, hw⟩ := Option.isSome_iff_exists.1 hs
          obtain ⟨j, hj, hjv⟩ := (find_iff hR k w).1 hw
          have hji : j ∈ ids := by
            rcases hnew j hj with h1 | ⟨k', v', h1, h2⟩
            · exact h1
            · rw [hjv] at h2
              have := congrArg Prod.fst (Option.some.inj h2)
              simp only at this
              subst this
              exact absurd h1 hre
          have hjv0 := (hev.val _ (hl.repr.lt _ hji)).symm.trans hjv
          have : j = it.current := val_unique h hji hi hjv0 hv
          subst this
          exact ⟨hj, v, hv'⟩
        · rw [if_neg hs]
          apply hgone
          intro hm
          apply hs
          rw [(find_iff hR k v).2 ⟨_, hm, hv'⟩]; rfl
    · have hn : ∀ k, c ≠ .live k := fun k hk => hlive ⟨k, hk⟩
      rw [change_stay hn]
      exact at_frame hat hn hev.fresh hev.keep hev.val hev.sub

omit [DecidableEq K] in
theorem headD_at {t : LHM K V} {ids : List Nat} {is : List Nat}
    {ps : List (K × V)} (hs : ∀ i ∈ is, i ∈ ids) (hv : is.map t.list.val = ps.map some) {it : Iter}
    (hit : it.current = is.headD 0) : At' t ids it (first ps) := by
  cases is with
  | nil =>
    have : ps = [] := by simpa using hv.symm
    subst this
    exact hit
  | cons i is =>
    cases ps with
    | nil => simp at hv
    | cons p ps =>
      simp only [List.map_cons, List.cons.injEq] at hv
      simp only [List.headD_cons] at hit
      exact ⟨by rw [hit]; exact hs i (by simp), p.2, by rw [hit]; exact hv.1⟩

theorem getLastD_reverse (xs : List Nat) : xs.getLastD 0 = xs.reverse.headD 0 := by
  rcases List.eq_nil_or_concat xs with rfl | ⟨ys, y, rfl⟩
  · rfl
  · simp

/-- A new iterator stands at the start. -/
theorem iterator_at {t : LHM K V} {ids : List Nat} {es : List (K × V)} (h : Ring t ids es) (front : Bool) :
    At' t ids (iterator t front) (Spec.Cursor.start front es) := by
  have hl := h.lnk
  cases front with
  | true =>
    refine headD_at (is := ids) (fun _ h => h) hl.vals ?_
    simp only [iterator, if_true, front_eq hl.repr]
  | false =>
    refine headD_at (is := ids.reverse) (fun _ h => List.mem_reverse.1 h) ?_ ?_
    · show _ = List.map some es.reverse
      rw [List.map_reverse, List.map_reverse, hl.vals]
    · simp only [iterator, Bool.false_eq_true, if_false, back_eq hl.repr, getLastD_reverse]

/-- `Next` is as specified. -/
theorem next_at {t : LHM K V} {ids : List Nat} {es : List (K × V)} (h : Ring t ids es) {it : Iter} {c : Cur K V}
    (hat : At' t ids it c) :
    (next t it).2 = (Spec.Cursor.next it.front es c).2 ∧ (next t it).1.front = it.front ∧
      At' t ids (next t it).1 (Spec.Cursor.next it.front es c).1 := by
  have hl := h.lnk
  match c, hat with
  | .stop, hat =>
    have h0 : it.current = 0 := hat
    simp only [LinkedHashMap.next, h0, ne_eq, not_true_eq_false, if_false, Spec.Cursor.next]
    exact ⟨trivial, trivial, h0⟩
  | .ghost [], hat =>
    have h0 : it.current = 0 := hat
    simp only [LinkedHashMap.next, h0, ne_eq, not_true_eq_false, if_false, Spec.Cursor.next]
    exact ⟨trivial, trivial, h0⟩
  | .gone k v, ⟨h1, h2, h3, h4, h5⟩ =>
    simp only [LinkedHashMap.next, h1, ne_eq, not_false_eq_true, if_true, Spec.Cursor.next, h5]
    refine ⟨trivial, trivial, ?_⟩
    show (if it.front = true then _ else _) = 0
    split
    · simp [elemNext, h4]
    · simp [elemPrev, h4]
  | .ghost (p :: ps), ⟨gs, h1, h2, h3, h4⟩ =>
    obtain ⟨h5, h6, h7, h8⟩ := h4 it.current (by simp)
    simp only [LinkedHashMap.next, h5, ne_eq, not_false_eq_true, if_true, Spec.Cursor.next, h2]
    refine ⟨trivial, trivial, ?_⟩
    have hcur : (if it.front = true then t.list.elemNext it.current else t.list.elemPrev it.current) = gs.headD 0 := by
      have hh : (if it.front = true then t.list.next it.current else t.list.prev it.current) = hd gs := by
        have := h1.head
        split at this <;> rename_i hb <;> simpa [hb] using this
      cases gs with
      | nil =>
        split at hh <;> rename_i hb <;> simp [hb, elemNext, elemPrev, hh, hd]
      | cons g gs =>
        have hg := h4 g (by simp)
        have hgr : g ≠ root := by rintro rfl; exact hg.2.2.1 (by simp)
        split at hh <;> rename_i hb <;> simp [hb, elemNext, elemPrev, hh, hd, h8, hgr]
    cases gs with
    | nil =>
      have : ps = [] := by simpa using h3.symm
      subst this
      exact hcur
    | cons g gs =>
      cases ps with
      | nil => simp at h3
      | cons q ps =>
        simp only [List.map_cons, List.cons.injEq] at h3
        simp only [List.headD_cons] at hcur
        refine ⟨gs, ?_, ?_, h3.2, ?_⟩
        · dsimp only; rw [hcur]; exact h1.2
        · dsimp only; rw [hcur]; exact h3.1
        · dsimp only; rw [hcur]
          exact fun g' hg' => h4 g' (List.mem_cons_of_mem _ hg')
  | .live k, ⟨hi, v, hv⟩ =>
    have hf := (find_iff h k v).2 ⟨_, hi, hv⟩
    have h0 := hl.repr.pos _ hi
    simp only [LinkedHashMap.next, h0, ne_eq, not_false_eq_true, if_true, Spec.Cursor.next, hv, hf, Option.map_some]
    refine ⟨trivial, trivial, ?_⟩
    obtain ⟨xs, ys, exs, a, eys, rfl, rfl, h3, h4, h5⟩ := hl.split hi
    rw [hv] at h3
    obtain rfl := Option.some.inj h3
    cases hfr : it.front with
    | true =>
      rw [show dir true (exs ++ (k, v) :: eys) = exs ++ (k, v) :: eys from rfl, since_split hl.nodup]
      refine headD_at (is := ys) (fun i hi => by simp [hi]) h5 ?_
      simp only [if_true]
      exact elemNext_eq hl.repr
    | false =>
      rw [show dir false (exs ++ (k, v) :: eys) = (exs ++ (k, v) :: eys).reverse from rfl, since_split_rev hl.nodup]
      refine headD_at (is := xs.reverse) (fun i hi => by simp at hi; simp [hi]) ?_ ?_
      · rw [List.tail_cons, List.map_reverse, List.map_reverse]; exact congrArg List.reverse h4
      · simp only [Bool.false_eq_true, if_false]
        rw [elemPrev_eq hl.repr, getLastD_reverse]

/-- The iterators stand where their cursors say. -/
def Ats (t : LHM K V) (ids : List Nat) (its : List Iter) (cs : List (Bool × Cur K V)) : Prop :=
  List.Forall₂ (fun it c => it.front = c.1 ∧ At' t ids it c.2) its cs

theorem forall₂_get {α β : Type} {R : α → β → Prop} {xs : List α} {ys : List β} (h : List.Forall₂ R xs ys) (i : Nat) :
    (xs[i]? = none ∧ ys[i]? = none) ∨ ∃ x y, xs[i]? = some x ∧ ys[i]? = some y ∧ R x y := by
  induction h generalizing i with
  | nil => left; simp
  | cons h _ ih =>
    cases i with
    | zero => exact Or.inr ⟨_, _, rfl, rfl, h⟩
    | succ i => simpa using ih i

theorem forall₂_set {α β : Type} {R : α → β → Prop} {xs : List α} {ys : List β} (h : List.Forall₂ R xs ys) (i : Nat)
    {x : α} {y : β} (hr : R x y) : List.Forall₂ R (xs.set i x) (ys.set i y) := by
  induction h generalizing i with
  | nil => exact .nil
  | cons h h2 ih =>
    cases i with
    | zero => exact .cons hr h2
    | succ i => exact .cons h (ih i)

theorem forall₂_snoc {α β : Type} {R : α → β → Prop} {xs : List α} {ys : List β} (h : List.Forall₂ R xs ys)
    {x : α} {y : β} (hr : R x y) : List.Forall₂ R (xs ++ [x]) (ys ++ [y]) := by
  induction h with
  | nil => exact .cons hr .nil
  | cons h _ ih => exact .cons h ih

/-- Every history of calls, iterators and `Next`s returns what the specification returns. -/
theorem itRun_spec (zk : K) (zv : V) (limit : Int) (as : List (Act K V)) {s : ItSt K V} {ss : Spec.Cursor.St K V}
    {ids : List Nat} (h : Ring s.t ids ss.es) (hlim : s.t.limit = limit) (ha : Ats s.t ids s.its ss.cs) :
    itRun zk zv s as = Spec.Cursor.run zk zv limit ss as := by
  induction as generalizing s ss ids with
  | nil => rfl
  | cons a as ih =>
    cases a with
    | call o =>
      obtain ⟨ids', hR, hat⟩ := call_at zk zv h o
      obtain ⟨h1, h2, h3⟩ := step_spec zk zv h.inv o
      rw [hlim] at h1 h3 hR
      simp only [itRun, itStep, Spec.Cursor.run, Spec.Cursor.step, h1]
      congr 1
      refine ih (s := ⟨_, _⟩) (ss := ⟨_, _⟩) hR h3 ?_
      unfold Ats
      rw [List.forall₂_map_right_iff]
      refine List.Forall₂.imp ?_ ha
      rintro it c ⟨hf, hc⟩
      refine ⟨hf, ?_⟩
      have := hat it c.2 hc
      rw [hlim, hf] at this
      exact this
    | iterator front =>
      simp only [itRun, itStep, Spec.Cursor.run, Spec.Cursor.step]
      congr 1
      refine ih (s := ⟨_, _⟩) (ss := ⟨_, _⟩) h hlim ?_
      exact forall₂_snoc ha ⟨rfl, iterator_at h front⟩
    | next i =>
      rcases forall₂_get ha i with ⟨h1, h2⟩ | ⟨it, c, h1, h2, hf, hc⟩
      · simp only [itRun, itStep, Spec.Cursor.run, Spec.Cursor.step, h1, h2]
        congr 1
        exact ih h hlim ha
      · obtain ⟨h3, h4, h5⟩ := next_at h hc
        rw [hf] at h3 h4 h5
        simp only [itRun, itStep, Spec.Cursor.run, Spec.Cursor.step, h1, h2, h3]
        congr 1
        refine ih (s := ⟨_, _⟩) (ss := ⟨_, _⟩) h hlim ?_
        exact forall₂_set ha i ⟨h4, h5⟩

end Gofer.LinkedHashMap
