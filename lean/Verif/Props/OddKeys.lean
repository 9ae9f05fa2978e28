import Verif.Proof.OddKeys
/-! # Properties C187 - C189: keys that cannot be hashed, NaN keys, nil keys -/
namespace Gofer.Props.OddKeys
open Gofer.OddKeys

/-! ### C187 -/

/-- C187, as stated: a call that panics because of its key (and whose caller recovers) leaves the container as it was. -/
def C187_claim : Prop :=
  (∀ (t : ML Nat) (o : MOp Nat), (t.step o).2 = .panic → (t.step o).1 = t) ∧
  (∀ (t : LM Nat) (o : LOp Nat), (t.step o).2 = .panic → (t.step o).1 = t) ∧
  (∀ (t : LH Nat) (o : HOp Nat), (t.step o).2 = .panic → (t.step o).1 = t) ∧
  ∀ (t : LC Nat) (o : COp Nat), (t.step o).2 = .panic → (t.step o).1 = t

/-- C187 is false. -/
theorem C187_claim_false : ¬ C187_claim := by
  intro h
  have := h.2.2.1 (LH.new 1) (.put (.slice 0) 5) (by decide)
  revert this
  decide

variable {V : Type}

/-- C187, where it holds: `Map`, `MapL` and `LruCache`, all methods; `LimitMap` but for `RemoveMulti`; `LinkedHashMap` but for `Put` and `LoadOrStore`. Missing: these three. -/
theorem C187_unchanged_partial :
    (∀ (t : ML V) (o : MOp V), (t.step o).2 = .panic → (t.step o).1 = t) ∧
    (∀ (t : LC V) (o : COp V), (t.step o).2 = .panic → (t.step o).1 = t) ∧
    (∀ (t : LM V) (o : LOp V), (∀ ks, o ≠ .removeMulti ks) → (t.step o).2 = .panic → (t.step o).1 = t) ∧
    ∀ (t : LH V) (o : HOp V), (∀ k v, o ≠ .put k v ∧ o ≠ .loadOrStore k v) → (t.step o).2 = .panic → (t.step o).1 = t := by
  refine ⟨fun t o h => ?_, fun t o h => ?_, fun t o hne h => ?_, fun t o hne h => ?_⟩
  · cases o with
    | put k v =>
      simp only [ML.step] at h ⊢
      split at h <;> simp_all
      cases hl : GMap.load t.m k <;> simp [hl] at h
    | get k => simp only [ML.step] at h ⊢; split at h <;> simp_all
    | has k => simp only [ML.step] at h ⊢; split at h <;> simp_all
    | del k =>
      simp only [ML.step] at h ⊢
      split at h <;> simp_all
      cases hl : GMap.load t.m k <;> simp [hl] at h
    | len => rfl
  · cases o with
    | add k v =>
      simp only [LC.step] at h ⊢
      split at h
      · simp_all
      · split at h
        · simp_all
        · cases hl : GMap.load t.cache k <;> simp [hl] at h
    | get k =>
      simp only [LC.step] at h ⊢
      split at h
      · simp_all
      · cases hl : GMap.load t.cache k <;> simp [hl] at h
    | remove k => simp only [LC.step] at h ⊢; split at h <;> simp_all
    | removeMulti ks => simp [LC.step] at h
  · cases o with
    | put k v =>
      simp only [LM.step] at h ⊢
      split at h
      · simp_all
      · cases hl : GMap.load t.cache k <;> simp [hl] at h
    | get k => simp only [LM.step] at h ⊢; split at h <;> simp_all
    | del k => simp only [LM.step] at h ⊢; split at h <;> simp_all
    | removeMulti ks => exact (hne ks rfl).elim
    | len => rfl
  · cases o with
    | put k v => exact ((hne k v).1 rfl).elim
    | loadOrStore k v => exact ((hne k v).2 rfl).elim
    | get k => simp only [LH.step] at h ⊢; split at h <;> simp_all
    | delete k =>
      simp only [LH.step] at h ⊢
      split at h
      · simp_all
      · cases hl : GMap.load t.m k <;> simp [hl] at h
    | back => simp [LH.step] at h
    | front => simp [LH.step] at h
    | clear => simp [LH.step] at h
    | len => simp [LH.step] at h
    | moveToFront k =>
      simp only [LH.step] at h ⊢
      split at h
      · simp_all
      · cases hl : GMap.load t.m k <;> simp [hl] at h

/-- C187. `RemoveMulti` of a `LimitMap` panics exactly if some key cannot be hashed, and has then removed the keys before the first such. -/
theorem C187_removeMulti (t : LM V) (ks : List Key) :
    ((t.step (.removeMulti ks)).2 = .panic ↔ ∃ k ∈ ks, k.hashable = false) ∧
    (t.step (.removeMulti ks)).1 = (t.step (.removeMulti (ks.takeWhile Key.hashable))).1 := by
  suffices h : ((t.dropMulti ks).2 = true ↔ ∃ k ∈ ks, k.hashable = false) ∧ (t.dropMulti ks).1 = (t.dropMulti (ks.takeWhile Key.hashable)).1 by
    refine ⟨?_, h.2⟩
    rw [← h.1]
    simp only [LM.step]
    cases (t.dropMulti ks).2 <;> simp
  induction ks generalizing t with
  | nil => simp [LM.dropMulti]
  | cons k ks ih =>
    by_cases hk : k.hashable
    · have := ih (t.drop k)
      rw [List.takeWhile_cons, if_pos hk]
      simp only [LM.dropMulti, hk, Bool.not_true, Bool.false_eq_true, if_false, List.mem_cons, exists_eq_or_imp, false_or]
      exact ⟨by rw [this.1]; simp, this.2⟩
    · rw [List.takeWhile_cons, if_neg hk]
      simp [LM.dropMulti, hk]

/-- C187. What `Put` of a key that cannot be hashed does to a `LinkedHashMap`, whatever was called before: it panics, no other key is affected and `Len` is the same, but the entry is
at the front of the list for everybody to see. -/
theorem C187_linked_put (limit : Int) (os : List (HOp V)) (r : Nat) (v : V) :
    let t := (LH.new limit : LH V).run os
    let t' := (t.step (.put (.slice r) v)).1
    (t.step (.put (.slice r) v)).2 = .panic ∧ (t'.step .front).2 = .entry (some (.slice r, v)) ∧ (t'.step .len).2 = (t.step .len).2 ∧
    ∀ k, (t'.step (.get k)).2 = (t.step (.get k)).2 := by
  intro t t'
  have hi : HInv t := hinv_run (hinv_new limit) os
  refine ⟨rfl, rfl, rfl, fun k => ?_⟩
  show ((t.push (.slice r) v).step (.get k)).2 = _
  simp only [LH.step]
  split
  · rfl
  · show Res.val ((GMap.load t.m k).bind (valOf (t.push (.slice r) v).list)) = _
    cases hl : GMap.load t.m k with
    | none => rfl
    | some id =>
      have := hi _ (load_mem hl)
      simp only [Option.bind_some, valOf, LH.push]
      rw [List.find?_cons_of_neg]
      simp only [beq_iff_eq]
      simp only at this
      omega

/-- C187. The limit is lost: for every limit there is a history, with two panics, after which `Len` is one more than the limit, and it stays so whatever is put, with no further panics
needed. -/
theorem C187_limit_lost (limit : Nat) (v : V) : ∃ os : List (HOp V), ∀ ps : List (Key × V), (∀ p ∈ ps, p.1.hashable = true) →
    (((LH.new limit : LH V).run (os ++ ps.map fun p => .put p.1 p.2)).step .len).2 = .num (limit + 1) := by
  have build : ∀ j : Nat, j ≤ limit → ∃ os : List (HOp V), Build 0 j ((LH.new limit : LH V).run os) ∧ ((LH.new limit : LH V).run os).limit = limit := by
    intro j
    induction j with
    | zero =>
      intro _
      refine ⟨[.put (.slice 0) v], ⟨rfl, ?_, ⟨[], v, rfl, by simp⟩, by simp [LH.run, LH.step, LH.putCore, LH.push, Key.hashable, LH.new]⟩, rfl⟩
      intro p hp
      cases hp
    | succ j ih =>
      intro hj
      obtain ⟨os, h1, h2⟩ := ih (by omega)
      refine ⟨os ++ [.put (.num j) v], ?_⟩
      have := build_put h1 (by rw [h2]; omega) v
      simp only [LH.run, List.foldl_append, List.foldl_cons, List.foldl_nil]
      exact ⟨this.1, this.2.trans h2⟩
  obtain ⟨os, h1, h2⟩ := build limit (Nat.le_refl _)
  refine ⟨os ++ [.put (.num limit) v], fun ps hps => ?_⟩
  have h3 := build_full h1 h2.symm v
  have key : ∀ (ps : List (Key × V)) (t : LH V), Over t → t.limit = limit → (∀ p ∈ ps, p.1.hashable = true) →
      ((t.run (ps.map fun p => .put p.1 p.2)).step .len).2 = .num (limit + 1) := by
    intro ps
    induction ps with
    | nil => intro t ht hl _; show Res.num t.count = _; rw [ht.1, hl]
    | cons p ps ih =>
      intro t ht hl hp
      obtain ⟨a, b⟩ := over_put ht (hp p (by simp)) p.2
      exact ih _ a (b.trans hl) fun q hq => hp q (by simp [hq])
  have : (LH.new limit : LH V).run (os ++ [.put (.num limit) v] ++ ps.map fun p => .put p.1 p.2) =
      (((LH.new limit : LH V).run os).putCore (.num limit) v).1.run (ps.map fun p => .put p.1 p.2) := by
    simp only [LH.run, List.foldl_append, List.foldl_cons, List.foldl_nil]
    rfl
  rw [this]
  exact key ps _ h3.1 (h3.2.2.trans h2) hps

/-- A map of at most one entry: after a Put that panicked, a second one, of an ordinary key, panics, and there are two entries. -/
example : let t := (LH.new 1 : LH Nat).run [.put (.slice 0) 0, .put (.num 1) 10]
    (t.step (.put (.num 2) 20)).2 = .panic ∧ ((t.step (.put (.num 2) 20)).1.step .len).2 = .num 2 ∧ ((t.step (.put (.num 2) 20)).1.step (.get (.num 1))).2 = .val (some 10) := by
  decide

example : let t := (LM.new 5 : LM Nat).run [.put (.num 1) 10, .put (.num 2) 20]
    (t.step (.removeMulti [.num 1, .slice 0, .num 2])).2 = .panic ∧ ((t.step (.removeMulti [.num 1, .slice 0, .num 2])).1.step .len).2 = .num 1 := by decide

/-! ### C188 -/

/-- C188, as stated: a `LimitMap` of capacity `C` never has more than `max(C + 1, 1)` entries (C17), whatever the keys. -/
def C188_claim : Prop := ∀ (cap : Int) (os : List (LOp Nat)) (n : Int), (((LM.new cap : LM Nat).run os).step .len).2 = .num n → n ≤ max (cap + 1) 1

/-- C188. With NaN as the key there is no limit: `n` Puts make `n` entries. -/
theorem C188_unbounded (cap : Int) (n : Nat) (v : V) : (((LM.new cap : LM V).run (List.replicate n (.put .nan v))).step .len).2 = .num n := by
  have key : ∀ n : Nat, ∀ t : LM V, (∀ p ∈ t.cache, p.1 = .nan) → (∀ e ∈ t.order, e.key = .nan) → (t.run (List.replicate n (.put .nan v))).cache.length = t.cache.length + n := by
    intro n
    induction n with
    | zero => intro t _ _; rfl
    | succ n ih =>
      intro t h1 h2
      obtain ⟨a, b, c⟩ := put_nan t v h1 h2
      rw [List.replicate_succ]
      have := ih _ b c
      show ((t.step (.put .nan v)).1.run (List.replicate n (.put .nan v))).cache.length = _
      rw [this, a]; omega
  show Res.num _ = _
  rw [key n _ (by intro p hp; cases hp) (by intro p hp; cases hp)]
  simp [LM.new]

/-- C188 is false. -/
theorem C188_claim_false : ¬ C188_claim := by
  intro h
  have := h 1 _ _ (C188_unbounded 1 5 0)
  omega

/-- C188. And the entries stay for ever: whatever is called afterwards, `Len` is at least the number of Puts of NaN. -/
theorem C188_stuck (cap : Int) (n : Nat) (v : V) (os : List (LOp V)) :
    ∃ m : Nat, n ≤ m ∧ (((LM.new cap : LM V).run (List.replicate n (.put .nan v) ++ os)).step .len).2 = .num m := by
  refine ⟨_, ?_, rfl⟩
  have h1 : ∀ n : Nat, ∀ t : LM V, nans t.cache + n ≤ nans (t.run (List.replicate n (.put .nan v))).cache := by
    intro n
    induction n with
    | zero => intro t; exact Nat.le_refl _
    | succ n ih =>
      intro t
      have := ih (t.step (.put .nan v)).1
      have e : nans (t.step (.put .nan v)).1.cache = nans t.cache + 1 := by
        simp only [LM.step, Key.hashable, Bool.not_true, Bool.false_eq_true, if_false, load_nan]
        rw [nans_store, nans_evict]
        simp
      rw [List.replicate_succ]
      show _ ≤ nans ((t.step (.put .nan v)).1.run (List.replicate n (.put .nan v))).cache
      omega
  have h2 := h1 n (LM.new cap)
  have h3 := nans_run ((LM.new cap : LM V).run (List.replicate n (.put .nan v))) os
  have h4 := nans_le ((LM.new cap : LM V).run (List.replicate n (.put .nan v) ++ os)).cache
  have e : (LM.new cap : LM V).run (List.replicate n (.put .nan v) ++ os) = ((LM.new cap : LM V).run (List.replicate n (.put .nan v))).run os := by
    simp only [LM.run, List.foldl_append]
  rw [e] at h4 ⊢
  omega

/-- C188, what holds: the bound, if NaN is never put. Keys that cannot be hashed do no harm. Missing: NaN. -/
theorem C188_limit_partial (cap : Int) (os : List (LOp V)) (ho : ∀ o ∈ os, ∀ v, o ≠ .put .nan v) (n : Int) (h : (((LM.new cap : LM V).run os).step .len).2 = .num n) :
    n ≤ max (cap + 1) 1 := by
  have := (linv_run (linv_new cap) os ho).bound
  rw [run_cap] at this
  have e : (((LM.new cap : LM V).run os).cache.length : Int) = n := by simpa [LM.step] using h
  rw [← e]
  exact this

/-- C188. NaN is found by no container. -/
theorem C188_not_found (a : ML V) (b : LM V) (c : LH V) (d : LC V) :
    (a.step (.get .nan)).2 = .val none ∧ (b.step (.get .nan)).2 = .val none ∧ (c.step (.get .nan)).2 = .val none ∧ (d.step (.get .nan)).2 = .val none := by
  simp [ML.step, LM.step, LH.step, LC.step, Key.hashable, load_nan]

example : (((LM.new 1 : LM Nat).run [.put .nan 1, .put (.num 1) 1, .put .nan 2, .put .nan 3, .del .nan]).step .len).2 = .num 3 := by decide

example : (((LM.new 1 : LM Nat).run [.put (.text [97]) 1, .put (.num 1) 1, .put (.slice 2) 2, .put (.num 3) 3]).step .len).2 = .num 2 := by decide

/-! ### C189 -/

/-- C189, as stated: `Range` calls its function for all entries (here one that never returns false) and returns. -/
def C189_claim : Prop := ∀ m : GMap Nat, (m.map Prod.fst).Nodup → rangeCalls (fun _ _ _ => true) m [] = (m, false)

/-- C189 is false: a nil key makes `Range` panic. -/
theorem C189_claim_false : ¬ C189_claim := by
  intro h
  have := h [(.nil, 1), (.num 1, 2)] (by decide)
  revert this
  decide

/-- The calls of a loop over entries that stops when `f` says so. -/
def loop (f : List (Key × V) → Key → V → Bool) : List (Key × V) → List (Key × V) → List (Key × V)
  | [], seen => seen
  | (k, v) :: rest, seen => if f seen k v then loop f rest (seen ++ [(k, v)]) else seen ++ [(k, v)]

/-- C189. Without a nil key `Range` is the loop, and does not panic. Missing: nil keys. -/
theorem C189_range_partial (f : List (Key × V) → Key → V → Bool) (m : GMap V) (h : ∀ p ∈ m, p.1 ≠ .nil) : rangeCalls f m [] = (loop f m [], false) := by
  suffices ∀ seen, rangeCalls f m seen = (loop f m seen, false) from this []
  induction m with
  | nil => intro seen; rfl
  | cons p m ih =>
    intro seen
    obtain ⟨k, v⟩ := p
    have hk : k ≠ .nil := h _ (List.mem_cons_self)
    simp only [rangeCalls, loop, hk, if_false]
    split
    · exact ih (fun q hq => h q (by simp [hq])) _
    · rfl

/-- C189. With a nil key, exactly: the entries that `sync.Map.Range` takes before it are the calls, and if the function never says stop on them, `Range` panics. -/
theorem C189_nil (f : List (Key × V) → Key → V → Bool) (a b : GMap V) (v : V) (h : ∀ p ∈ a, p.1 ≠ .nil) (hf : ∀ s k v, f s k v = true) :
    rangeCalls f (a ++ (.nil, v) :: b) [] = (a, true) := by
  suffices ∀ seen, rangeCalls f (a ++ (.nil, v) :: b) seen = (seen ++ a, true) by simpa using this []
  induction a with
  | nil => intro seen; simp [rangeCalls]
  | cons p a ih =>
    intro seen
    obtain ⟨k, w⟩ := p
    have hk : k ≠ .nil := h _ (List.mem_cons_self)
    simp only [List.cons_append, rangeCalls, hk, if_false, hf, if_true]
    rw [ih (fun q hq => h q (by simp [hq]))]
    simp

example : rangeCalls (fun _ _ _ => true) ((ML.step (ML.step ⟨[], 0⟩ (.put .nil 1)).1 (.put (.num 1) 2)).1.m) [] = ([(Key.num 1, 2)], true) := by decide

end Gofer.Props.OddKeys
