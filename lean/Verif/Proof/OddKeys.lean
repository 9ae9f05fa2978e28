import Verif.Model.OddKeys
import Mathlib.Tactic.Ring
import Mathlib.Data.List.Pairwise
/-! # Lemmas on the containers with unusual keys -/
namespace Gofer.OddKeys
variable {V A : Type}

theorem eq_nan (k : Key) : Key.eq k .nan = false := by cases k <;> rfl

theorem eq_iff {a b : Key} (h : a ≠ .nan) : Key.eq a b = true ↔ a = b := by
  cases a <;> cases b <;> simp_all [Key.eq]

theorem eq_of {a b : Key} (h : Key.eq a b = true) : a = b := by
  cases a <;> cases b <;> simp_all [Key.eq]

theorem load_nan (m : GMap A) : GMap.load m .nan = none := by
  unfold GMap.load
  rw [List.find?_eq_none.2 (by intro x _; simp [eq_nan])]
  rfl

theorem delete_nan (m : GMap A) : GMap.delete m .nan = m := by
  unfold GMap.delete
  exact List.filter_eq_self.2 (by intro x _; simp [eq_nan])

theorem load_mem {m : GMap A} {k : Key} {a : A} (h : GMap.load m k = some a) : (k, a) ∈ m := by
  unfold GMap.load at h
  obtain ⟨p, hp, rfl⟩ := Option.map_eq_some_iff.1 h
  have h1 := List.mem_of_find?_eq_some hp
  have h2 := List.find?_some hp
  have := eq_of h2
  rw [← this]
  exact h1

theorem load_none {m : GMap A} {k : Key} (hk : k ≠ .nan) (h : GMap.load m k = none) (a : A) : (k, a) ∉ m := by
  intro hm
  unfold GMap.load at h
  rw [Option.map_eq_none_iff, List.find?_eq_none] at h
  have := h _ hm
  rw [eq_iff hk] at this
  exact this rfl

theorem mem_delete {m : GMap A} {k : Key} {p : Key × A} (hk : k ≠ .nan) : p ∈ GMap.delete m k ↔ p ∈ m ∧ p.1 ≠ k := by
  unfold GMap.delete
  rw [List.mem_filter]
  refine and_congr_right fun _ => ?_
  by_cases h : p.1 = .nan
  · rw [h]; simp [Key.eq, Ne.symm hk]
  · by_cases h2 : p.1 = k
    · subst h2
      simp [(eq_iff h).2 rfl]
    · have : Key.eq p.1 k = false := by
        cases h3 : Key.eq p.1 k
        · rfl
        · exact (h2 (eq_of h3)).elim
      simp [this, h2]

theorem delete_length {m : GMap A} {k : Key} {a : A} (hk : k ≠ .nan) (h : (k, a) ∈ m) : (GMap.delete m k).length + 1 ≤ m.length := by
  unfold GMap.delete
  have : (m.filter fun p => !p.1.eq k).length < m.length := by
    rw [List.length_filter_lt_length_iff_exists]
    exact ⟨_, h, by simp [(eq_iff hk).2 rfl]⟩
  omega

theorem delete_le (m : GMap A) (k : Key) : (GMap.delete m k).length ≤ m.length := List.length_filter_le _ _

theorem mem_unlink {l : List (Elem V)} {id : Nat} {e : Elem V} : e ∈ unlink l id ↔ e ∈ l ∧ e.id ≠ id := by
  simp [unlink]

theorem mem_toFront {l : List (Elem V)} {id : Nat} {e : Elem V} : e ∈ toFront l id ↔ e ∈ l := by
  simp only [toFront, List.mem_append, mem_unlink, List.mem_filter, beq_iff_eq]
  by_cases h : e.id = id <;> simp [h]

/-! ### LimitMap: no NaN -/

/-- The state of a `LimitMap` in which no NaN was put. -/
structure LInv (t : LM V) : Prop where
  same : ∀ k id, (k, id) ∈ t.cache ↔ ∃ v, ⟨id, k, v⟩ ∈ t.order
  keys : t.order.Pairwise fun a b => a.key ≠ b.key ∧ a.id ≠ b.id
  fresh : ∀ e ∈ t.order, e.id < t.next
  ok : ∀ e ∈ t.order, e.key ≠ .nan
  bound : (t.cache.length : Int) ≤ max (t.capacity + 1) 1

theorem linv_new (cap : Int) : LInv (LM.new cap : LM V) :=
  ⟨by simp [LM.new], by simp [LM.new], by simp [LM.new], by simp [LM.new], by simp only [LM.new, List.length_nil]; omega⟩

theorem LInv.key_id {t : LM V} (h : LInv t) {a b : Elem V} (ha : a ∈ t.order) (hb : b ∈ t.order) : a.key = b.key ↔ a.id = b.id := by
  by_cases e : a = b
  · simp [e]
  · have := haveI : Std.Symm (fun a b : Elem V => a.key ≠ b.key ∧ a.id ≠ b.id) := ⟨fun _ _ h => ⟨Ne.symm h.1, Ne.symm h.2⟩⟩
      h.keys.forall ha hb e
    simp [this.1, this.2]

/-- Removing an element together with its key. -/
theorem linv_remove {t : LM V} (h : LInv t) {e : Elem V} (he : e ∈ t.order) :
    LInv { t with order := unlink t.order e.id, cache := GMap.delete t.cache e.key } := by
  have hn := h.ok e he
  refine ⟨?_, h.keys.sublist List.filter_sublist, fun x hx => h.fresh x (mem_unlink.1 hx).1, fun x hx => h.ok x (mem_unlink.1 hx).1, ?_⟩
  · intro k id
    rw [mem_delete hn]
    constructor
    · rintro ⟨h1, h2⟩
      obtain ⟨v, hv⟩ := (h.same k id).1 h1
      exact ⟨v, mem_unlink.2 ⟨hv, fun e1 => h2 ((h.key_id hv he).2 e1)⟩⟩
    · rintro ⟨v, hv⟩
      obtain ⟨h1, h2⟩ := mem_unlink.1 hv
      exact ⟨(h.same k id).2 ⟨v, h1⟩, fun e1 => h2 ((h.key_id h1 he).1 e1)⟩
  · have := h.bound
    have := delete_le t.cache e.key
    show ((GMap.delete t.cache e.key).length : Int) ≤ max (t.capacity + 1) 1
    omega

theorem linv_drop {t : LM V} (h : LInv t) (k : Key) : LInv (t.drop k) := by
  unfold LM.drop
  cases hl : GMap.load t.cache k with
  | none => exact h
  | some id =>
    obtain ⟨v, hv⟩ := (h.same k id).1 (load_mem hl)
    exact linv_remove h hv

theorem linv_dropMulti {t : LM V} (h : LInv t) (ks : List Key) : LInv (t.dropMulti ks).1 := by
  induction ks generalizing t with
  | nil => exact h
  | cons k ks ih =>
    unfold LM.dropMulti
    split
    · exact h
    · exact ih (linv_drop h k)

theorem linv_evict {t : LM V} (h : LInv t) : LInv t.evict ∧ t.evict.next = t.next ∧ (t.evict.cache.length : Int) + 1 ≤ max (t.capacity + 1) 1 ∧ t.evict.capacity = t.capacity := by
  unfold LM.evict
  have hb := h.bound
  split
  · rename_i hc
    cases hl : t.order.getLast? with
    | none =>
      refine ⟨h, rfl, ?_, rfl⟩
      have ho : t.order = [] := List.getLast?_eq_none_iff.1 hl
      have hcache : t.cache = [] := by
        rw [List.eq_nil_iff_forall_not_mem]
        rintro ⟨k, id⟩ hm
        obtain ⟨v, hv⟩ := (h.same k id).1 hm
        rw [ho] at hv; cases hv
      rw [hcache]; simp only [List.length_nil]; omega
    | some e =>
      have he : e ∈ t.order := List.mem_of_getLast? hl
      have hm : (e.key, e.id) ∈ t.cache := (h.same _ _).2 ⟨e.val, he⟩
      refine ⟨linv_remove h he, rfl, ?_, rfl⟩
      have := delete_length (h.ok e he) hm
      show ((GMap.delete t.cache e.key).length : Int) + 1 ≤ _
      omega
  · refine ⟨h, rfl, ?_, rfl⟩
    omega

theorem evict_mem {t : LM V} {e : Elem V} (h : e ∈ t.evict.order) : e ∈ t.order := by
  unfold LM.evict at h
  split at h
  · cases hl : t.order.getLast? with
    | none => simpa [hl] using h
    | some x => rw [hl] at h; exact (mem_unlink.1 h).1
  · exact h

theorem setVal_mem {l : List (Elem V)} {id : Nat} {v : V} {e : Elem V} (h : e ∈ setVal l id v) : ∃ e' ∈ l, e'.id = e.id ∧ e'.key = e.key := by
  obtain ⟨e', h1, h2⟩ := List.mem_map.1 h
  refine ⟨e', h1, ?_⟩
  split at h2 <;> subst h2 <;> exact ⟨rfl, rfl⟩

theorem mem_setVal {l : List (Elem V)} (id : Nat) (v : V) {e : Elem V} (h : e ∈ l) : ∃ v', (⟨e.id, e.key, v'⟩ : Elem V) ∈ setVal l id v := by
  by_cases hi : e.id = id
  · exact ⟨v, List.mem_map.2 ⟨e, h, by simp [hi]⟩⟩
  · exact ⟨e.val, List.mem_map.2 ⟨e, h, by simp [hi]⟩⟩

theorem linv_step {t : LM V} (h : LInv t) (o : LOp V) (ho : ∀ v, o ≠ .put .nan v) : LInv (t.step o).1 := by
  cases o with
  | get k => simp only [LM.step]; split <;> exact h
  | len => exact h
  | del k =>
    simp only [LM.step]
    split
    · exact h
    · exact linv_drop h k
  | removeMulti ks => exact linv_dropMulti h ks
  | put k v =>
    have hk : k ≠ .nan := fun e => ho v (by rw [e])
    simp only [LM.step]
    split
    · exact h
    · cases hl : GMap.load t.cache k with
      | some id =>
        simp only
        have hin : ∀ e : Elem V, e ∈ toFront (setVal t.order id v) id → ∃ e' ∈ t.order, e'.id = e.id ∧ e'.key = e.key := fun e he => setVal_mem (mem_toFront.1 he)
        refine ⟨?_, ?_, ?_, ?_, h.bound⟩
        · intro k' id'
          rw [h.same]
          constructor
          · rintro ⟨w, hw⟩
            obtain ⟨v', hv'⟩ := mem_setVal id v hw
            exact ⟨v', mem_toFront.2 hv'⟩
          · rintro ⟨w, hw⟩
            obtain ⟨e', h1, h2, h3⟩ := hin _ hw
            exact ⟨e'.val, by cases e'; simp only at h2 h3; subst h2 h3; exact h1⟩
        · have hs : (setVal t.order id v).Pairwise fun a b => a.key ≠ b.key ∧ a.id ≠ b.id := by
            unfold setVal
            rw [List.pairwise_map]
            refine h.keys.imp ?_
            intro a b hab
            split <;> split <;> exact hab
          unfold toFront
          rw [List.pairwise_append]
          refine ⟨hs.sublist List.filter_sublist, hs.sublist List.filter_sublist, ?_⟩
          intro a ha b hb
          have ha := List.mem_filter.1 ha
          have hb := mem_unlink.1 hb
          have hne : a.id ≠ b.id := by
            have : a.id = id := by simpa using ha.2
            rw [this]; exact Ne.symm hb.2
          obtain ⟨a', a1, a2, a3⟩ := setVal_mem ha.1
          obtain ⟨b', b1, b2, b3⟩ := setVal_mem hb.1
          refine ⟨fun e => hne ?_, hne⟩
          rw [← a2, ← b2]
          exact (h.key_id a1 b1).1 (by rw [a3, b3, e])
        · intro e he
          obtain ⟨e', h1, h2, h3⟩ := hin _ he
          have := h.fresh e' h1
          rw [← h2]; exact this
        · intro e he
          obtain ⟨e', h1, h2, h3⟩ := hin _ he
          rw [← h3]; exact h.ok e' h1
      | none =>
        simp only
        obtain ⟨h1, h2, h3, h4⟩ := linv_evict h
        have hno : ∀ e ∈ t.evict.order, e.key ≠ k := by
          intro e he e1
          have := (h.same e.key e.id).2 ⟨e.val, evict_mem he⟩
          rw [e1] at this
          exact load_none hk hl _ this
        have hnoc : ∀ p ∈ t.evict.cache, p.1 ≠ k := by
          rintro ⟨k', id⟩ hp
          obtain ⟨w, hw⟩ := (h1.same _ _).1 hp
          exact hno _ hw
        have hdel : GMap.delete t.evict.cache k = t.evict.cache := by
          unfold GMap.delete
          refine List.filter_eq_self.2 fun p hp => ?_
          have := hnoc p hp
          cases h3 : Key.eq p.1 k
          · rfl
          · exact (this (eq_of h3)).elim
        refine ⟨?_, ?_, ?_, ?_, ?_⟩
        · intro k' id
          simp only [GMap.store, hdel, List.mem_cons, Prod.mk.injEq]
          constructor
          · rintro (⟨rfl, rfl⟩ | hm)
            · exact ⟨v, .inl rfl⟩
            · obtain ⟨w, hw⟩ := (h1.same _ _).1 hm
              exact ⟨w, .inr hw⟩
          · rintro ⟨w, hw | hw⟩
            · simp only [Elem.mk.injEq] at hw
              exact .inl ⟨hw.2.1, hw.1⟩
            · exact .inr ((h1.same _ _).2 ⟨w, hw⟩)
        · rw [List.pairwise_cons]
          refine ⟨fun e he => ⟨Ne.symm (hno e he), ?_⟩, h1.keys⟩
          have := h1.fresh e he
          simp only; omega
        · intro e he
          rcases List.mem_cons.1 he with rfl | he
          · simp
          · have := h1.fresh e he
            simp only; omega
        · intro e he
          rcases List.mem_cons.1 he with rfl | he
          · exact hk
          · exact h1.ok e he
        · simp only [GMap.store, hdel, List.length_cons]
          rw [h4]
          push_cast
          omega

theorem run_cap {t : LM V} (os : List (LOp V)) : (t.run os).capacity = t.capacity := by
  unfold LM.run
  induction os generalizing t with
  | nil => rfl
  | cons o os ih =>
    rw [List.foldl_cons, ih]
    have hd : ∀ (t : LM V) k, (t.drop k).capacity = t.capacity := by intro t k; unfold LM.drop; split <;> rfl
    have hdm : ∀ (ks : List Key) (t : LM V), (t.dropMulti ks).1.capacity = t.capacity := by
      intro ks
      induction ks with
      | nil => intro t; rfl
      | cons k ks ih =>
        intro t
        unfold LM.dropMulti
        split
        · rfl
        · rw [ih, hd]
    have he : t.evict.capacity = t.capacity := by
      unfold LM.evict
      split
      · split <;> rfl
      · rfl
    cases o with
    | get k => simp only [LM.step]; split <;> rfl
    | len => rfl
    | del k => simp only [LM.step]; split <;> [rfl; exact hd _ _]
    | removeMulti ks => exact hdm _ _
    | put k v =>
      simp only [LM.step]
      split
      · rfl
      · split
        · rfl
        · exact he

theorem linv_run {t : LM V} (h : LInv t) (os : List (LOp V)) (ho : ∀ o ∈ os, ∀ v, o ≠ .put .nan v) : LInv (t.run os) := by
  unfold LM.run
  induction os generalizing t with
  | nil => exact h
  | cons o os ih => exact ih (linv_step h o (ho o (by simp))) fun o' ho' => ho o' (by simp [ho'])

/-! ### LimitMap: NaN -/

/-- Entries under NaN. -/
def nans (m : GMap A) : Nat := m.countP fun p => p.1 = .nan

theorem nans_delete (m : GMap A) (k : Key) : nans (GMap.delete m k) = nans m := by
  unfold nans GMap.delete
  rw [List.countP_filter]
  congr 1
  funext p
  by_cases h : p.1 = .nan
  · simp [h, Key.eq]
  · simp [h]

theorem nans_store (m : GMap A) (k : Key) (a : A) : nans (GMap.store m k a) = nans m + if k = .nan then 1 else 0 := by
  have : nans ((k, a) :: GMap.delete m k) = nans (GMap.delete m k) + if k = .nan then 1 else 0 := by
    unfold nans
    rw [List.countP_cons]
    simp
  rw [GMap.store, this, nans_delete]

theorem nans_le (m : GMap A) : nans m ≤ m.length := List.countP_le_length

theorem nans_drop (t : LM V) (k : Key) : nans (t.drop k).cache = nans t.cache := by
  unfold LM.drop
  split
  · rfl
  · exact nans_delete _ _

theorem nans_dropMulti (t : LM V) (ks : List Key) : nans (t.dropMulti ks).1.cache = nans t.cache := by
  induction ks generalizing t with
  | nil => rfl
  | cons k ks ih =>
    unfold LM.dropMulti
    split
    · rfl
    · rw [ih, nans_drop]

theorem nans_evict (t : LM V) : nans t.evict.cache = nans t.cache := by
  unfold LM.evict
  split
  · split
    · rfl
    · exact nans_delete _ _
  · rfl

theorem nans_step (t : LM V) (o : LOp V) : nans t.cache ≤ nans (t.step o).1.cache := by
  cases o with
  | get k => simp only [LM.step]; split <;> exact Nat.le_refl _
  | len => exact Nat.le_refl _
  | del k => simp only [LM.step]; split <;> [exact Nat.le_refl _; exact Nat.le_of_eq (nans_drop _ _).symm]
  | removeMulti ks => exact Nat.le_of_eq (nans_dropMulti _ _).symm
  | put k v =>
    simp only [LM.step]
    split
    · exact Nat.le_refl _
    · split
      · exact Nat.le_refl _
      · show nans t.cache ≤ nans (GMap.store t.evict.cache k t.evict.next)
        rw [nans_store, nans_evict]
        omega

theorem nans_run (t : LM V) (os : List (LOp V)) : nans t.cache ≤ nans (t.run os).cache := by
  unfold LM.run
  induction os generalizing t with
  | nil => exact Nat.le_refl _
  | cons o os ih => exact Nat.le_trans (nans_step t o) (ih _)

/-- Putting NaN: one entry more. -/
theorem put_nan (t : LM V) (v : V) (h : ∀ p ∈ t.cache, p.1 = .nan) (ho : ∀ e ∈ t.order, e.key = .nan) :
    let t' := (t.step (.put .nan v)).1
    t'.cache.length = t.cache.length + 1 ∧ (∀ p ∈ t'.cache, p.1 = .nan) ∧ ∀ e ∈ t'.order, e.key = .nan := by
  have he : t.evict.cache = t.cache ∧ ∀ e ∈ t.evict.order, e.key = .nan := by
    refine ⟨?_, fun e h => ho e (evict_mem h)⟩
    unfold LM.evict
    split
    · split
      · rfl
      · rename_i e hl
        have : e.key = .nan := ho e (List.mem_of_getLast? hl)
        show GMap.delete t.cache e.key = t.cache
        rw [this, delete_nan]
    · rfl
  simp only [LM.step, Key.hashable, Bool.not_true, Bool.false_eq_true, if_false, load_nan, GMap.store, delete_nan, he.1]
  refine ⟨by simp, ?_, ?_⟩
  · intro p hp
    rcases List.mem_cons.1 hp with rfl | hp
    · rfl
    · exact h p hp
  · intro e h
    rcases List.mem_cons.1 h with rfl | h
    · rfl
    · exact he.2 e h

/-! ### LinkedHashMap -/

/-- Identities in the map were given out. -/
def HInv (t : LH V) : Prop := ∀ p ∈ t.m, p.2 < t.next

theorem mem_delete_sub {m : GMap A} {k : Key} {p : Key × A} (h : p ∈ GMap.delete m k) : p ∈ m := (List.mem_filter.1 h).1

theorem hinv_trim {t : LH V} (h : HInv t) : HInv t.trim.1 := by
  unfold LH.trim
  split
  · split
    · exact h
    · rename_i e hl
      by_cases hh : e.key.hashable
      · simp only [hh, Bool.not_true, Bool.false_eq_true, if_false]
        intro p hp
        exact h p (mem_delete_sub hp)
      · simp only [hh, Bool.not_false, if_true]
        exact h
  · exact h

theorem hinv_put {t : LH V} (h : HInv t) (k : Key) (v : V) : HInv (t.putCore k v).1 := by
  have hst : ∀ p ∈ GMap.store t.m k t.next, p.2 < t.next + 1 := by
    intro p hp
    rcases List.mem_cons.1 hp with rfl | hp
    · simp
    · have := h p (mem_delete_sub hp)
      omega
  unfold LH.putCore
  by_cases hh : k.hashable
  · simp only [hh, Bool.not_true, Bool.false_eq_true, if_false]
    show HInv (match GMap.load t.m k with | none => _ | some pre => _ : LH V × Bool × Option V).1
    split
    · exact hinv_trim hst
    · exact hst
  · simp only [hh, Bool.not_false, if_true]
    intro p hp
    have := h p hp
    simp only [LH.push]; omega

theorem hinv_step {t : LH V} (h : HInv t) (o : HOp V) : HInv (t.step o).1 := by
  cases o with
  | put k v => exact hinv_put h k v
  | loadOrStore k v => exact hinv_put h k v
  | get k => simp only [LH.step]; split <;> exact h
  | delete k =>
    simp only [LH.step]
    split
    · exact h
    · split
      · exact h
      · intro p hp; exact h p (mem_delete_sub hp)
  | back => exact h
  | front => exact h
  | clear => intro p hp; cases hp
  | len => exact h
  | moveToFront k =>
    simp only [LH.step]
    split
    · exact h
    · split <;> exact h

theorem hinv_run {t : LH V} (h : HInv t) (os : List (HOp V)) : HInv (t.run os) := by
  unfold LH.run
  induction os generalizing t with
  | nil => exact h
  | cons o os ih => exact ih (hinv_step h o)

theorem hinv_new (limit : Int) : HInv (LH.new limit : LH V) := by intro p hp; cases hp

/-- Over the limit by one, no slices in the list: it stays so. -/
def Over (t : LH V) : Prop := t.count = t.limit + 1 ∧ ∀ e ∈ t.list, e.key.hashable = true

theorem over_put {t : LH V} (h : Over t) {k : Key} (hk : k.hashable = true) (v : V) : Over (t.putCore k v).1 ∧ (t.putCore k v).1.limit = t.limit := by
  have hl : ∀ e ∈ (t.push k v).list, e.key.hashable = true := by
    intro e he
    rcases List.mem_cons.1 he with rfl | he
    · exact hk
    · exact h.2 e he
  unfold LH.putCore
  simp only [hk, Bool.not_true, Bool.false_eq_true, if_false]
  show Over (match GMap.load t.m k with | none => _ | some pre => _ : LH V × Bool × Option V).1 ∧ (match GMap.load t.m k with | none => _ | some pre => _ : LH V × Bool × Option V).1.limit = _
  cases GMap.load t.m k with
  | some pre => exact ⟨⟨h.1, fun e he => hl e (mem_unlink.1 he).1⟩, rfl⟩
  | none =>
    simp only
    have hc := h.1
    unfold LH.trim
    have : ((t.push k v).count + 1 > (t.push k v).limit) := by simp only [LH.push]; omega
    simp only [this, if_true]
    cases hg : (t.push k v).list.getLast? with
    | none => simp [LH.push] at hg
    | some e =>
      have hh := hl e (List.mem_of_getLast? hg)
      simp only [hh, Bool.not_true, Bool.false_eq_true, if_false]
      refine ⟨⟨?_, fun e he => hl e (mem_unlink.1 he).1⟩, rfl⟩
      simp only [LH.push]; omega

/-- `j` numbers were put after a slice. -/
structure Build (r : Nat) (j : Nat) (t : LH V) : Prop where
  count : t.count = j
  keys : ∀ p ∈ t.m, ∃ n : Int, p.1 = .num n ∧ n < j
  list : ∃ l v, t.list = l ++ [⟨0, .slice r, v⟩] ∧ ∀ e ∈ l, e.key.hashable = true ∧ e.id ≠ 0
  next : 0 < t.next

theorem load_fresh {m : GMap Nat} {j : Nat} (h : ∀ p ∈ m, ∃ n : Int, p.1 = .num n ∧ n < j) : GMap.load m (.num j) = none := by
  cases hl : GMap.load m (.num j) with
  | none => rfl
  | some a =>
    obtain ⟨n, h1, h2⟩ := h _ (load_mem hl)
    simp only [Key.num.injEq] at h1
    omega

theorem keys_store {m : GMap Nat} {j : Nat} (a : Nat) (h : ∀ p ∈ m, ∃ n : Int, p.1 = .num n ∧ n < j) : ∀ p ∈ GMap.store m (.num j) a, ∃ n : Int, p.1 = .num n ∧ n < (j + 1 : Nat) := by
  intro p hp
  rcases List.mem_cons.1 hp with rfl | hp
  · exact ⟨j, rfl, by omega⟩
  · obtain ⟨n, h1, h2⟩ := h p (mem_delete_sub hp)
    exact ⟨n, h1, by omega⟩

theorem build_put {r j : Nat} {t : LH V} (h : Build r j t) (hj : (j : Int) + 1 ≤ t.limit) (v : V) :
    Build r (j + 1) (t.putCore (.num j) v).1 ∧ (t.putCore (.num j) v).1.limit = t.limit := by
  have hload : GMap.load (t.push (.num j) v).m (.num j) = none := load_fresh h.keys
  have hc := h.count
  have hno : ¬ ((t.push (.num j) v).count + 1 > (t.push (.num j) v).limit) := by simp only [LH.push]; omega
  simp only [LH.putCore, Key.hashable, Bool.not_true, Bool.false_eq_true, if_false, hload, LH.trim, hno]
  refine ⟨⟨?_, keys_store _ h.keys, ?_, by simp [LH.push]⟩, rfl⟩
  · simp only [LH.push]; push_cast; omega
  · obtain ⟨l, w, h1, h2⟩ := h.list
    refine ⟨⟨t.next, .num j, v⟩ :: l, w, by simp [LH.push, h1], ?_⟩
    intro e he
    rcases List.mem_cons.1 he with rfl | he
    · exact ⟨rfl, Nat.ne_of_gt h.next⟩
    · exact h2 e he

theorem build_full {r j : Nat} {t : LH V} (h : Build r j t) (hj : (j : Int) = t.limit) (v : V) :
    Over (t.putCore (.num j) v).1 ∧ (t.putCore (.num j) v).2.1 = true ∧ (t.putCore (.num j) v).1.limit = t.limit := by
  have hload : GMap.load (t.push (.num j) v).m (.num j) = none := load_fresh h.keys
  have hc := h.count
  have hno : (t.push (.num j) v).count + 1 > (t.push (.num j) v).limit := by simp only [LH.push]; omega
  obtain ⟨l, w, h1, h2⟩ := h.list
  have hlast : (t.push (.num j) v).list.getLast? = some ⟨0, .slice r, w⟩ := by
    simp only [LH.push, h1]
    rw [← List.cons_append, List.getLast?_append]
    simp
  simp only [LH.putCore, Key.hashable, Bool.not_true, Bool.false_eq_true, if_false, hload, LH.trim, hno, if_true, hlast, Bool.not_false]
  refine ⟨⟨?_, ?_⟩, trivial, rfl⟩
  · simp only [LH.push]; omega
  · intro e he
    obtain ⟨he, hid⟩ := mem_unlink.1 he
    simp only [LH.push, h1, List.mem_cons, List.mem_append, List.not_mem_nil, or_false] at he
    rcases he with rfl | he | rfl
    · rfl
    · exact (h2 e he).1
    · exact (hid rfl).elim

end Gofer.OddKeys
