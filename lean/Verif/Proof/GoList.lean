import Verif.Model.GoList
import Mathlib.Tactic.Ring
import Mathlib.Data.List.Nodup
import Mathlib.Data.List.Basic

/-! # The pointer ring represents a list of element ids -/
namespace Gofer.GoList
variable {α : Type}

/-- Following `f` from `a` visits `xs` and then the sentinel. -/
def Walk (f : Nat → Nat) : Nat → List Nat → Prop
  | a, [] => f a = root
  | a, x :: xs => f a = x ∧ Walk f x xs

/-- The last address of `a :: xs`. -/
def lst : Nat → List Nat → Nat
  | a, [] => a
  | _, x :: xs => lst x xs

/-- The first of `ys`, or the sentinel. -/
def hd : List Nat → Nat
  | [] => root
  | y :: _ => y

@[simp] theorem upd_same {β : Type} (f : Nat → β) (i : Nat) (x : β) : upd f i x i = x := by simp [upd]

theorem upd_ne {β : Type} (f : Nat → β) {i j : Nat} (x : β) (h : j ≠ i) : upd f i x j = f j := by simp [upd, h]

theorem lst_mem (a : Nat) (xs : List Nat) : lst a xs ∈ a :: xs := by
  induction xs generalizing a with
  | nil => simp [lst]
  | cons x xs ih => exact List.mem_cons_of_mem _ (ih x)

theorem lst_append (a : Nat) (xs : List Nat) (e : Nat) (ys : List Nat) : lst a (xs ++ e :: ys) = lst e ys := by
  induction xs generalizing a with
  | nil => rfl
  | cons x xs ih => exact ih x

theorem lst_eq_hd_reverse (xs : List Nat) : lst root xs.reverse = hd xs := by
  cases xs with
  | nil => rfl
  | cons x xs => rw [List.reverse_cons, lst_append]; rfl

theorem hd_reverse (xs : List Nat) : hd xs.reverse = lst root xs := by
  have := lst_eq_hd_reverse xs.reverse
  rw [List.reverse_reverse] at this
  exact this.symm

theorem Walk.frame {f : Nat → Nat} {a : Nat} {xs : List Nat} (h : Walk f a xs) {i v : Nat}
    (hi : i ∉ a :: xs) : Walk (upd f i v) a xs := by
  induction xs generalizing a with
  | nil =>
    simp only [Walk] at *
    rw [upd_ne]; exact h
    rintro rfl; simp at hi
  | cons x xs ih =>
    obtain ⟨h1, h2⟩ := h
    refine ⟨?_, ih h2 ?_⟩
    · rw [upd_ne]; exact h1
      rintro rfl; simp at hi
    · intro hm; exact hi (List.mem_cons_of_mem _ hm)

theorem Walk.head {f : Nat → Nat} {a : Nat} {xs : List Nat} (h : Walk f a xs) : f a = hd xs := by
  cases xs with
  | nil => exact h
  | cons x xs => exact h.1

/-- At an inner element, the walk continues with what follows it. -/
theorem Walk.at {f : Nat → Nat} {a : Nat} {xs ys : List Nat} {e : Nat} (h : Walk f a (xs ++ e :: ys)) :
    f e = hd ys := by
  induction xs generalizing a with
  | nil => exact h.2.head
  | cons x xs ih => exact ih h.2

/-- Unlink an inner element. -/
theorem Walk.unlink {f : Nat → Nat} {a : Nat} {xs ys : List Nat} {e : Nat} (h : Walk f a (xs ++ e :: ys))
    (hn : (a :: (xs ++ e :: ys)).Nodup) : Walk (upd f (lst a xs) (hd ys)) a (xs ++ ys) := by
  induction xs generalizing a with
  | nil =>
    simp only [List.nil_append, lst] at *
    obtain ⟨h1, h2⟩ := h
    have ha : a ∉ e :: ys := (List.nodup_cons.1 hn).1
    cases ys with
    | nil => simp [Walk, hd]
    | cons y ys =>
      refine ⟨by simp [hd], ?_⟩
      exact h2.2.frame (by intro hm; exact ha (List.mem_cons_of_mem _ hm))
  | cons x xs ih =>
    obtain ⟨h1, h2⟩ := h
    have hn' := (List.nodup_cons.1 hn)
    refine ⟨?_, ih h2 hn'.2⟩
    rw [upd_ne]; exact h1
    intro heq
    have hmem := lst_mem x xs
    simp only [lst] at heq
    rw [← heq] at hmem
    apply hn'.1
    simp only [List.cons_append, List.mem_cons, List.mem_append] at hmem ⊢
    tauto

/-- Append a new last element. -/
theorem Walk.snoc {f : Nat → Nat} {a : Nat} {xs : List Nat} {e : Nat} (h : Walk f a xs)
    (hn : (a :: xs).Nodup) (he : e ∉ a :: xs) :
    Walk (upd (upd f e root) (lst a xs) e) a (xs ++ [e]) := by
  induction xs generalizing a with
  | nil =>
    simp only [lst, List.nil_append, Walk, upd_same, true_and]
    rw [upd_ne _ _ (by rintro rfl; simp at he)]; simp
  | cons x xs ih =>
    obtain ⟨h1, h2⟩ := h
    have hn' := (List.nodup_cons.1 hn)
    refine ⟨?_, ih h2 hn'.2 (fun hm => he (List.mem_cons_of_mem _ hm))⟩
    simp only [lst]
    rw [upd_ne, upd_ne]; exact h1
    · rintro rfl; simp at he
    · intro heq
      have := lst_mem x xs
      rw [← heq] at this
      exact hn'.1 this

/-- The ring of `l` passes through exactly `ids`. -/
structure Repr (l : GoList α) (ids : List Nat) : Prop where
  nodup : (root :: ids).Nodup
  fwd : Walk l.next root ids
  bwd : Walk l.prev root ids.reverse
  len : l.len = ids.length
  owned : ∀ i ∈ ids, l.owned i = true
  lt : ∀ i ∈ ids, i < l.fresh
  two : 2 ≤ l.fresh
  vals : ∀ i ∈ ids, (l.val i).isSome = true
  pos : ∀ i ∈ ids, i ≠ 0

theorem nodup_rev {l : GoList α} {ids : List Nat} (h : Repr l ids) : (root :: ids.reverse).Nodup := by
  have := h.nodup
  simp only [List.nodup_cons, List.mem_reverse, List.nodup_reverse] at *
  exact this

theorem repr_new : Repr (new : GoList α) [] := by
  constructor <;> simp [new, Walk, root]

theorem repr_init {l : GoList α} {ids : List Nat} (h : Repr l ids) : Repr l.init [] := by
  constructor <;> simp [init, Walk]
  exact h.two

theorem front_eq {l : GoList α} {ids : List Nat} (h : Repr l ids) : l.front = ids.headD 0 := by
  cases ids with
  | nil => simp [front, h.len]
  | cons x xs =>
    have := h.fwd.head
    simp [front, h.len, this, hd]

theorem back_eq {l : GoList α} {ids : List Nat} (h : Repr l ids) : l.back = ids.getLastD 0 := by
  have hl := h.len
  cases hr : ids.reverse with
  | nil =>
    have : ids = [] := by simpa using hr
    subst this
    simp [back, hl]
  | cons x xs =>
    have h2 := h.bwd
    rw [hr] at h2
    have : ids = xs.reverse ++ [x] := by
      have := congrArg List.reverse hr; simpa using this
    subst this
    simp [back, hl, h2.head, hd]

theorem elemNext_eq {l : GoList α} {xs ys : List Nat} {e : Nat} (h : Repr l (xs ++ e :: ys)) :
    l.elemNext e = ys.headD 0 := by
  have h1 : l.next e = hd ys := h.fwd.at
  have h2 : l.owned e = true := h.owned e (by simp)
  cases ys with
  | nil => simp [elemNext, h1, h2, hd]
  | cons y ys =>
    have : y ≠ root := by
      rintro rfl
      have := h.nodup; simp at this
    simp [elemNext, h1, h2, hd, this]

theorem elemPrev_eq {l : GoList α} {xs ys : List Nat} {e : Nat} (h : Repr l (xs ++ e :: ys)) :
    l.elemPrev e = xs.getLastD 0 := by
  have hb := h.bwd
  rw [List.reverse_append, List.reverse_cons, List.append_assoc, List.singleton_append] at hb
  have h1 : l.prev e = hd xs.reverse := hb.at
  have h2 : l.owned e = true := h.owned e (by simp)
  cases hr : xs.reverse with
  | nil =>
    have : xs = [] := by simpa using hr
    subst this
    simp [elemPrev, h1, h2, hd]
  | cons y ys' =>
    have hx : xs = ys'.reverse ++ [y] := by
      have := congrArg List.reverse hr; simpa using this
    have : y ≠ root := by
      rintro rfl
      have := h.nodup; rw [hx] at this; simp at this
    rw [hr] at h1
    simp [elemPrev, h1, h2, hd, this, hx]

theorem not_mem_fresh {l : GoList α} {ids : List Nat} (h : Repr l ids) : l.fresh ∉ root :: ids := by
  intro hm
  rcases List.mem_cons.1 hm with h1 | h1
  · have := h.two; rw [h1] at this; simp [root] at this
  · exact absurd (h.lt _ h1) (lt_irrefl _)

/-- Link a fresh address after the root. -/
theorem link_front {f g : Nat → Nat} {ids : List Nat} {e : Nat} (hf : Walk f root ids)
    (hg : Walk g root ids.reverse) (hn : (root :: ids).Nodup) (he : e ∉ root :: ids) :
    Walk (upd (upd f e (f root)) root e) root (e :: ids) ∧
    Walk (upd (upd g e root) (f root) e) root (e :: ids).reverse := by
  have hne : e ≠ root := by rintro rfl; simp at he
  constructor
  · refine ⟨by simp, ?_⟩
    have hr : root ∉ ids := (List.nodup_cons.1 hn).1
    cases ids with
    | nil =>
      simp only [Walk]
      rw [upd_ne _ _ hne, upd_same]; exact hf
    | cons x xs =>
      refine ⟨?_, ?_⟩
      · rw [upd_ne _ _ hne, upd_same]; exact hf.1
      · apply Walk.frame
        · apply Walk.frame hf.2
          intro hm; exact he (List.mem_cons_of_mem _ hm)
        · exact hr
  · rw [List.reverse_cons, hf.head, ← lst_eq_hd_reverse]
    apply Walk.snoc hg
    · simpa using hn
    · simpa using he

theorem pushFront_fst_val {l : GoList α} (v : α) : (l.pushFront v).1.val = upd l.val l.fresh (some v) := rfl
theorem pushFront_snd {l : GoList α} (v : α) : (l.pushFront v).2 = l.fresh := rfl
theorem pushFront_owned {l : GoList α} (v : α) : (l.pushFront v).1.owned = upd l.owned l.fresh true := rfl
theorem pushFront_fresh {l : GoList α} (v : α) : (l.pushFront v).1.fresh = l.fresh + 1 := rfl

theorem repr_pushFront {l : GoList α} {ids : List Nat} (h : Repr l ids) (v : α) :
    Repr (l.pushFront v).1 ((l.pushFront v).2 :: ids) := by
  have hne := not_mem_fresh h
  obtain ⟨h1, h2⟩ := link_front h.fwd h.bwd h.nodup hne
  have hnd := h.nodup
  refine ⟨?_, h1, ?_, ?_, ?_, ?_, ?_, ?_, ?_⟩
  · simp only [pushFront_snd, List.nodup_cons, List.mem_cons] at *
    tauto
  · exact h2
  · simp [pushFront, insert, h.len]
  · intro i hi
    rw [pushFront_owned]
    simp only [pushFront_snd] at hi
    by_cases hif : i = l.fresh
    · simp [hif]
    · rw [upd_ne _ _ hif]; exact h.owned i (by simpa [hif] using hi)
  · intro i hi
    rw [pushFront_fresh]
    rcases List.mem_cons.1 hi with h1 | h1
    · rw [h1, pushFront_snd]; omega
    · have := h.lt i h1; omega
  · rw [pushFront_fresh]; have := h.two; omega
  · intro i hi
    rw [pushFront_fst_val]
    by_cases hif : i = l.fresh
    · simp [hif]
    · rw [upd_ne _ _ hif]; exact h.vals i (by simpa [pushFront_snd, hif] using hi)
  · intro i hi
    rcases List.mem_cons.1 hi with h1 | h1
    · rw [h1, pushFront_snd]; have := h.two; omega
    · exact h.pos i h1

/-- Unlinking `e` from both walks. -/
theorem unlink_both {f g : Nat → Nat} {xs ys : List Nat} {e : Nat} (hf : Walk f root (xs ++ e :: ys))
    (hg : Walk g root (xs ++ e :: ys).reverse) (hn : (root :: (xs ++ e :: ys)).Nodup) :
    Walk (upd f (g e) (f e)) root (xs ++ ys) ∧ Walk (upd g (f e) (g e)) root (xs ++ ys).reverse := by
  have hfe : f e = hd ys := hf.at
  have hg' := hg
  rw [List.reverse_append, List.reverse_cons, List.append_assoc, List.singleton_append] at hg'
  have hge : g e = hd xs.reverse := hg'.at
  have hn' : (root :: (ys.reverse ++ e :: xs.reverse)).Nodup := by
    have : (root :: (xs ++ e :: ys)).Nodup := hn
    have h3 : (root :: (xs ++ e :: ys).reverse).Nodup := by
      rw [List.nodup_cons, List.mem_reverse, List.nodup_reverse]; exact List.nodup_cons.1 this
    rwa [List.reverse_append, List.reverse_cons, List.append_assoc, List.singleton_append] at h3
  constructor
  · have := hf.unlink hn
    rw [hfe, hge, hd_reverse]; exact this
  · have := hg'.unlink hn'
    rw [List.reverse_append, hfe, hge]
    rw [lst_eq_hd_reverse] at this; exact this

theorem repr_removeElem {l : GoList α} {xs ys : List Nat} {e : Nat} (h : Repr l (xs ++ e :: ys)) :
    Repr (l.removeElem e) (xs ++ ys) := by
  obtain ⟨h1, h2⟩ := unlink_both h.fwd h.bwd h.nodup
  have hnd := h.nodup
  have he : e ∉ root :: (xs ++ ys) := by
    simp only [List.nodup_cons, List.nodup_append, List.mem_append, List.mem_cons] at *
    rintro (h5 | h5 | h5)
    · subst h5; tauto
    · exact hnd.2.2.2 e h5 e (Or.inl rfl) rfl
    · exact hnd.2.2.1.1 h5
  have hsub : ∀ i ∈ xs ++ ys, i ∈ xs ++ e :: ys := by
    intro i hi; simp only [List.mem_append, List.mem_cons] at *; tauto
  refine ⟨?_, ?_, ?_, ?_, ?_, ?_, ?_, ?_, ?_⟩
  · refine List.Nodup.sublist ?_ hnd
    exact List.Sublist.cons_cons _ (List.Sublist.append (List.Sublist.refl _) (List.sublist_cons_self _ _))
  · exact h1.frame he
  · exact h2.frame (by rw [List.mem_cons, List.mem_reverse]; rwa [List.mem_cons] at he)
  · have := h.len; simp [removeElem, List.length_append] at *; omega
  · intro i hi
    simp only [removeElem]
    rw [upd_ne]
    · exact h.owned i (hsub i hi)
    · rintro rfl; exact he (List.mem_cons_of_mem _ hi)
  · intro i hi; exact h.lt i (hsub i hi)
  · exact h.two
  · intro i hi; exact h.vals i (hsub i hi)
  · intro i hi; exact h.pos i (hsub i hi)

theorem repr_remove {l : GoList α} {xs ys : List Nat} {e : Nat} (h : Repr l (xs ++ e :: ys)) :
    Repr (l.remove e) (xs ++ ys) := by
  rw [remove, if_pos (h.owned e (by simp))]
  exact repr_removeElem h

theorem remove_val {l : GoList α} (e : Nat) : (l.remove e).val = l.val := by
  unfold remove; split <;> rfl

theorem remove_fresh {l : GoList α} (e : Nat) : (l.remove e).fresh = l.fresh := by
  unfold remove; split <;> rfl

theorem moveToFront_val {l : GoList α} (e : Nat) : (l.moveToFront e).val = l.val := by
  unfold moveToFront; split
  · rfl
  · unfold move; split <;> rfl

theorem moveToFront_fresh {l : GoList α} (e : Nat) : (l.moveToFront e).fresh = l.fresh := by
  unfold moveToFront; split
  · rfl
  · unfold move; split <;> rfl

theorem moveToFront_owned {l : GoList α} (e : Nat) : (l.moveToFront e).owned = l.owned := by
  unfold moveToFront; split
  · rfl
  · unfold move; split <;> rfl

theorem repr_moveToFront {l : GoList α} {xs ys : List Nat} {e : Nat} (h : Repr l (xs ++ e :: ys)) :
    Repr (l.moveToFront e) (e :: (xs ++ ys)) := by
  have ho := h.owned e (by simp)
  have hroot : l.next root = hd (xs ++ e :: ys) := h.fwd.head
  have hnd := h.nodup
  by_cases hx : xs = []
  · subst hx
    have : l.next root = e := by rw [hroot]; rfl
    rw [moveToFront, if_pos (Or.inr this)]
    exact h
  · have hne : l.next root ≠ e := by
      rw [hroot]
      cases xs with
      | nil => simp at hx
      | cons x xs =>
        simp only [hd, List.cons_append]
        rintro rfl
        simp at hnd
    have hroote : e ≠ root := by rintro rfl; simp at hnd
    have he : e ∉ root :: (xs ++ ys) := by
      simp only [List.nodup_cons, List.nodup_append, List.mem_append, List.mem_cons] at *
      rintro (h5 | h5 | h5)
      · exact hroote h5
      · exact hnd.2.2.2 e h5 e (Or.inl rfl) rfl
      · exact hnd.2.2.1.1 h5
    have hsub : ∀ i ∈ e :: (xs ++ ys), i ∈ xs ++ e :: ys := by
      intro i hi; simp only [List.mem_append, List.mem_cons] at *; tauto
    obtain ⟨h1, h2⟩ := unlink_both h.fwd h.bwd h.nodup
    have hn2 : (root :: (xs ++ ys)).Nodup := List.Nodup.sublist
      (List.Sublist.cons_cons _ (List.Sublist.append (List.Sublist.refl _) (List.sublist_cons_self _ _))) hnd
    obtain ⟨h3, h4⟩ := link_front h1 h2 hn2 he
    have hmv : l.moveToFront e = l.move e root := by
      rw [moveToFront, if_neg]; simp [ho, hne]
    rw [hmv]
    have hmove : l.move e root = { l with
        next := upd (upd (upd l.next (l.prev e) (l.next e)) e ((upd l.next (l.prev e) (l.next e)) root)) root e
        prev := upd (upd (upd l.prev (l.next e) (l.prev e)) e root) ((upd l.next (l.prev e) (l.next e)) root) e } := by
      simp [move, hroote]
    rw [hmove]
    refine ⟨?_, h3, h4, ?_, ?_, ?_, h.two, ?_, ?_⟩
    · simp only [List.nodup_cons, List.mem_cons] at hn2 he ⊢
      refine ⟨?_, ?_, hn2.2⟩ <;> tauto
    · have := h.len; simp at *; omega
    · intro i hi; exact h.owned i (hsub i hi)
    · intro i hi; exact h.lt i (hsub i hi)
    · intro i hi; exact h.vals i (hsub i hi)
    · intro i hi; exact h.pos i (hsub i hi)

theorem repr_setVal {l : GoList α} {ids : List Nat} (h : Repr l ids) (e : Nat) (v : α) :
    Repr (l.setVal e v) ids := by
  refine ⟨h.nodup, h.fwd, h.bwd, h.len, h.owned, h.lt, h.two, ?_, h.pos⟩
  intro i hi
  simp only [setVal, upd]
  split
  · rfl
  · exact h.vals i hi

end Gofer.GoList
