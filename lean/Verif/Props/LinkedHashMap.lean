import Verif.Proof.LinkedHashMap

/-! # `LinkedHashMap`: properties C13 - C16 -/
namespace Gofer.Props.LinkedHashMap
open Gofer.LinkedHashMap
open Gofer.Spec.Recency (Op Res)
open Gofer.Spec.Assoc
variable {K V : Type} [DecidableEq K]

/-- C14. Every history of calls on a new map with any limit returns what the recency list returns. -/
theorem C14_linkedHashMap_refines (zk : K) (zv : V) (limit : Int) (os : List (Op K V)) :
    Gofer.LinkedHashMap.run zk zv (new limit) os = Spec.Recency.run zk zv limit [] os :=
  (run_spec zk zv limit (inv_new limit) rfl os).1

/-- C14. What `Put` does in the specification: the entry is newest, other keys keep their relative
order; a present key is just moved, a new key below the limit is added, and at the limit exactly the
oldest entry is dropped. -/
theorem C14_put_spec (limit : Int) (k : K) (v : V) (es : List (K × V)) (hn : (es.map Prod.fst).Nodup) :
    (k ∈ es.map Prod.fst → Spec.Recency.put limit k v es = (k, v) :: es.filter fun p => p.1 ≠ k) ∧
    (k ∉ es.map Prod.fst → (es.length : Int) < limit → Spec.Recency.put limit k v es = (k, v) :: es) ∧
    (k ∉ es.map Prod.fst → ∀ old older, es = older ++ [old] → limit ≤ es.length →
      Spec.Recency.put limit k v es = (k, v) :: older) := by
  refine ⟨?_, ?_, ?_⟩
  · intro h
    have : find k es ≠ none := fun hc => find_none.1 hc h
    cases hf : find k es with
    | none => exact absurd hf this
    | some w => simp only [Spec.Recency.put, hf]; rfl
  · intro h hl
    simp only [Spec.Recency.put, find_none.2 h]
    rw [if_neg (by omega)]
  · intro h old older he hl
    simp only [Spec.Recency.put, find_none.2 h]
    rw [if_pos (by omega), he, ← List.cons_append, List.dropLast_concat]

example : Gofer.LinkedHashMap.run 0 0 (new 2 : LHM Nat Nat)
    [.put 1 10, .put 2 20, .get 1, .moveToFront 1, .put 3 30, .get 2, .front, .back, .len] =
    [.unit, .unit, .val 10 true, .unit, .unit, .val 0 false, .entry 3 30 true, .entry 1 10 true, .num 2] := by
  decide +kernel

/-- C13. After any history with limit `L`: `Len() ≤ max(L, 0)`, and `Len()` is the number of keys for
which `Get` succeeds. -/
theorem C13_limit (zk : K) (zv : V) (limit : Int) (os : List (Op K V)) :
    len (final zk zv (new limit) os) ≤ max limit 0 ∧
    ∃ keys : List K, keys.Nodup ∧ (∀ k, k ∈ keys ↔ (get (final zk zv (new limit) os) k).isSome = true) ∧
      len (final zk zv (new limit) os) = keys.length := by
  obtain ⟨_, h, hl⟩ := run_spec zk zv limit (inv_new limit) rfl os
  have hb := h.bound
  have hc := h.count
  rw [hl] at hb
  refine ⟨by rw [len, hc]; exact hb, (Spec.Recency.final zk zv limit [] os).map Prod.fst, ?_, ?_, ?_⟩
  · obtain ⟨ids, hk⟩ := h.lnk; exact hk.nodup
  · intro k
    rw [get_spec h, ← Option.ne_none_iff_isSome, ne_eq, find_none, not_not]
  · rw [len, hc, List.length_map]

/-- C15 is false: `LoadOrStore` on a present key replaces the stored value. -/
theorem C15_loadOrStore_refuted :
    Gofer.LinkedHashMap.run 0 0 (new 10 : LHM Nat Nat) [.put 1 100, .loadOrStore 1 200, .get 1] =
      [.unit, .val 100 true, .val 200 true] := by decide +kernel

/-- C15. The full claim: for every history, key and value, `LoadOrStore` on a present key returns its
value and leaves it stored. -/
def C15_claim : Prop := ∀ (os : List (Op Nat Nat)) (limit : Int) (k v old : Nat),
  get (final 0 0 (new limit) os) k = some old →
  (loadOrStore (final 0 0 (new limit) os) k v).2 = some old ∧
  get (loadOrStore (final 0 0 (new limit) os) k v).1 k = some old

theorem C15_claim_false : ¬ C15_claim := by
  intro h
  have h1 := (h [.put 1 100] 10 1 200 100 (by decide +kernel)).2
  have h2 : get (loadOrStore (final 0 0 (new 10 : LHM Nat Nat) [.put 1 100]) 1 200).1 1 = some 200 := by decide +kernel
  rw [h1] at h2
  simp at h2

/-- C15, the part that holds: the returned value is the existing one and `loaded` says whether the key
was present; the new value is always stored (if the limit is positive). Missing: leaving the existing
value stored. -/
theorem C15_loadOrStore_partial (zk : K) (zv : V) (limit : Int) (hlim : 0 < limit) (os : List (Op K V)) (k : K) (v : V) :
    (loadOrStore (final zk zv (new limit) os) k v).2 = get (final zk zv (new limit) os) k ∧
    get (loadOrStore (final zk zv (new limit) os) k v).1 k = some v := by
  obtain ⟨_, h, hl⟩ := run_spec zk zv limit (inv_new limit) rfl os
  obtain ⟨h1, h2, h3⟩ := putCore_spec h k v
  have e1 : (loadOrStore (final zk zv (new limit) os) k v).1 = (putCore (final zk zv (new limit) os) k v).1 := by
    simp only [loadOrStore]; split <;> rfl
  have e2 : (loadOrStore (final zk zv (new limit) os) k v).2 = find k (Spec.Recency.final zk zv limit [] os) := by
    rw [← h3]; simp only [loadOrStore]; split <;> rfl
  refine ⟨by rw [e2, get_spec h], ?_⟩
  rw [e1, get_spec h1, hl]
  unfold Spec.Recency.put
  split
  · simp [find]
  · split
    · have hne : Spec.Recency.final zk zv limit [] os ≠ [] := by
        intro hc
        rename_i hgt
        rw [hc] at hgt
        simp only [List.length_nil] at hgt
        push_cast at hgt
        omega
      cases hd : Spec.Recency.final zk zv limit [] os with
      | nil => exact absurd hd hne
      | cons a es => simp [find]
    · simp [find]

example : 0 < (3 : Int) := by decide

/-- C16. On an unmodified map reached by any history, `n` calls of `Next` yield the entries newest to
oldest (`front = true`) or oldest to newest, each exactly once, and then report the end for ever. -/
theorem C16_iterate (zk : K) (zv : V) (limit : Int) (os : List (Op K V)) (n : Nat) (front : Bool) :
    nexts (final zk zv (new limit) os) n (iterator (final zk zv (new limit) os) front) =
      ((if front then Spec.Recency.final zk zv limit [] os else (Spec.Recency.final zk zv limit [] os).reverse).map some
        ++ List.replicate n none).take n := by
  obtain ⟨_, h, _⟩ := run_spec zk zv limit (inv_new limit) rfl os
  obtain ⟨ids, hl⟩ := h.lnk
  cases front with
  | true =>
    have h1 : GoList.Repr (final zk zv (new limit) os).list ([] ++ ids) := hl.repr
    have := nexts_front (t := final zk zv (new limit) os) h1 n
    simp only [iterator, if_true, GoList.front_eq hl.repr, this, hl.vals]
  | false =>
    have h1 : GoList.Repr (final zk zv (new limit) os).list (ids.reverse.reverse ++ []) := by simpa using hl.repr
    have := nexts_back (t := final zk zv (new limit) os) h1 n
    have hb : (final zk zv (new limit) os).list.back = ids.reverse.headD 0 := by
      rw [GoList.back_eq hl.repr]
      cases hr : ids.reverse with
      | nil =>
        have : ids = [] := by simpa using hr
        subst this; rfl
      | cons a l =>
        have : ids = l.reverse ++ [a] := by
          have := congrArg List.reverse hr; simpa using this
        subst this; simp
    simp only [iterator, Bool.false_eq_true, if_false, hb, this, List.map_reverse, hl.vals]

example : nexts (final 0 0 (new 2 : LHM Nat Nat) [.put 1 10, .put 2 20, .put 3 30]) 4
    (iterator (final 0 0 (new 2 : LHM Nat Nat) [.put 1 10, .put 2 20, .put 3 30]) false) =
    [some (2, 20), some (3, 30), none, none] := by decide +kernel

/-- C16. Deleting any choice of just-returned entries while iterating does not change what is yielded:
all entries, in order, once. -/
theorem C16_iterate_deleting (zk : K) (zv : V) (limit : Int) (os : List (Op K V)) (n : Nat) (front : Bool)
    (del : K → V → Bool) :
    (nextsDeleting del n (final zk zv (new limit) os) (iterator (final zk zv (new limit) os) front)).1 =
      ((if front then Spec.Recency.final zk zv limit [] os else (Spec.Recency.final zk zv limit [] os).reverse).map some
        ++ List.replicate n none).take n := by
  obtain ⟨_, h, _⟩ := run_spec zk zv limit (inv_new limit) rfl os
  obtain ⟨ids, hl⟩ := h.lnk
  cases front with
  | true =>
    have := nextsDeleting_spec del true n (t := final zk zv (new limit) os) (rest := ids) (done := []) (edone := [])
      (erest := Spec.Recency.final zk zv limit [] os) (by simpa using hl) hl.vals rfl
    simp only [iterator, if_true, GoList.front_eq hl.repr, this]
  | false =>
    have := nextsDeleting_spec del false n (t := final zk zv (new limit) os) (rest := ids.reverse) (done := []) (edone := [])
      (erest := (Spec.Recency.final zk zv limit [] os).reverse) (by simpa using hl)
      (by rw [List.map_reverse, hl.vals, List.map_reverse]) rfl
    have hb : (final zk zv (new limit) os).list.back = ids.reverse.headD 0 := by
      rw [GoList.back_eq hl.repr]
      cases hr : ids.reverse with
      | nil =>
        have : ids = [] := by simpa using hr
        subst this; rfl
      | cons a l =>
        have : ids = l.reverse ++ [a] := by
          have := congrArg List.reverse hr; simpa using this
        subst this; simp
    simp only [iterator, Bool.false_eq_true, if_false, hb, this]

/-- C16. Deleting an entry that is *about* to be returned ends the iteration early: the deleted entry
is still returned and everything after it is lost. -/
theorem C16_delete_ahead_truncates :
    let t := final 0 0 (new 10 : LHM Nat Nat) [.put 1 10, .put 2 20, .put 3 30]
    let it := (next t (iterator t true)).1
    let t' := delete t 2
    nexts t' 3 it = [some (2, 20), none, none] ∧ get t' 1 = some 10 := by decide +kernel

end Gofer.Props.LinkedHashMap
