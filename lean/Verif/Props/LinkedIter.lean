import Verif.Proof.LinkedIter
import Verif.Proof.Cursor

/-! # Iterators of a `LinkedHashMap` that changes: property C162 -/
namespace Gofer.Props.LinkedIter
open Gofer.LinkedHashMap
open Gofer.Spec.Recency (Op Res)
open Gofer.Spec.Assoc
open Gofer.Spec.Cursor
variable {K V : Type} [DecidableEq K]

/-- C162. Any history of calls, of creations of iterators and of `Next`s of any of them, on a new map
with any limit, returns what the specification `Spec.Cursor` returns: an iterator remembers the entry it
returns next; that entry is followed wherever it moves; if it is replaced, deleted or pushed out it is
still returned, as the last one; after `Clear` the rest of the old entries is returned. -/
theorem C162_iterators_exact (zk : K) (zv : V) (limit : Int) (as : List (Act K V)) :
    itRun zk zv ⟨new limit, []⟩ as = Spec.Cursor.run zk zv limit ⟨[], []⟩ as :=
  itRun_spec zk zv limit as (ids := []) ⟨Lnk.new, rfl, by simp [new]⟩ rfl .nil

example : itRun 0 0 (⟨new 10, []⟩ : ItSt Nat Nat)
    [.call (.put 1 10), .call (.put 2 20), .call (.put 3 30), .iterator true, .iterator false, .next 0,
      .call (.moveToFront 2), .next 0, .next 0, .call (.delete 1), .next 1, .next 1] =
    [.call .unit, .call .unit, .call .unit, .made, .made, .next (some (3, 30)),
      .call .unit, .next (some (2, 20)), .next (some (3, 30)), .call .unit, .next (some (1, 10)), .next none] := by
  decide +kernel

/-- C162, the claim: what `Next` returns is in the map with that value when it is returned. -/
def C162_claim : Prop := ∀ (limit : Int) (as : List (Act Nat Nat)) (i k v : Nat) (pre : List (Out Nat Nat)) (r : Out Nat Nat),
  itRun 0 0 ⟨new limit, []⟩ (as ++ [.next i, .call (.get k)]) = pre ++ [.next (some (k, v)), r] →
    r = .call (.val v true)

/-- C162. The claim is false: an entry deleted before `Next` is returned. -/
theorem C162_claim_false : ¬ C162_claim := by
  intro h
  have := h 10 [.call (.put 1 10), .iterator true, .call (.delete 1)] 0 1 10
    [.call .unit, .made, .call .unit] (.call (.val 0 false)) (by decide +kernel)
  simp at this

theorem ring_final (zk : K) (zv : V) (limit : Int) (os : List (Op K V)) :
    ∃ ids, Ring (final zk zv (new limit) os) ids (Spec.Recency.final zk zv limit [] os) ∧
      (final zk zv (new limit) os : LHM K V).limit = limit := by
  obtain ⟨_, h, hl⟩ := run_spec zk zv limit (inv_new limit) rfl os
  obtain ⟨ids, hlnk⟩ := h.lnk
  exact ⟨ids, ⟨hlnk, h.count, h.bound⟩, hl⟩

theorem one_run (zk : K) (zv : V) (limit : Int) (os : List (Op K V)) (front : Bool) (as : List (Act K V)) :
    itRun zk zv ⟨final zk zv (new limit) os, [iterator (final zk zv (new limit) os) front]⟩ as =
      Spec.Cursor.run zk zv limit ⟨Spec.Recency.final zk zv limit [] os,
        [(front, start front (Spec.Recency.final zk zv limit [] os))]⟩ as := by
  obtain ⟨ids, hR, hl⟩ := ring_final zk zv limit os
  exact itRun_spec zk zv limit as hR hl (.cons ⟨rfl, iterator_at hR front⟩ .nil)

theorem ghost_run (zk : K) (zv : V) (limit : Int) (front : Bool) (es ps : List (K × V)) (n : Nat) :
    Spec.Cursor.run zk zv limit ⟨es, [(front, .ghost ps)]⟩ (List.replicate n (.next 0)) =
      ((ps.map some ++ List.replicate n none).take n).map .next := by
  induction n generalizing ps with
  | zero => rfl
  | succ n ih =>
    cases ps with
    | nil =>
      have := ih []
      simp only [List.map_nil, List.nil_append, List.take_replicate, Nat.min_self] at this ⊢
      rw [List.replicate_succ, List.replicate_succ, List.map_cons, ← this]
      rfl
    | cons p ps =>
      have h1 : (ps.map some ++ List.replicate (n + 1) none).take n = (ps.map some ++ List.replicate n (none : Option (K × V))).take n := by
        rw [List.take_append, List.take_append]
        congr 1
        rw [List.take_replicate, List.take_replicate]
        congr 1; omega
      rw [List.replicate_succ, List.map_cons, List.cons_append, List.take_succ_cons, h1, List.map_cons, ← ih ps]
      rfl

/-- C162. `Clear` does not end an iteration: whatever the map held when the iterator was created, after
`Clear` the iterator returns all of it. -/
theorem C162_cleared (zk : K) (zv : V) (limit : Int) (os : List (Op K V)) (front : Bool) (n : Nat) :
    let t := final zk zv (new limit) os
    itRun zk zv ⟨t, [iterator t front]⟩ (.call .clear :: List.replicate n (.next 0)) =
      .call .unit :: (((dir front (Spec.Recency.final zk zv limit [] os)).map some ++ List.replicate n none).take n).map .next := by
  intro t
  rw [one_run]
  obtain ⟨ids, hR, hl⟩ := ring_final zk zv limit os
  have hu : Uniq (Spec.Recency.final zk zv limit [] os) := hR.lnk.nodup
  generalize Spec.Recency.final zk zv limit [] os = es at hu
  rw [← ghost_run zk zv limit front []]
  simp only [Spec.Cursor.run, Spec.Cursor.step, Spec.Recency.step, List.map_cons, List.map_nil]
  congr 1
  have hs : ∀ c, change front es [] .clear (start front es) = c →
      Spec.Cursor.run zk zv limit ⟨[], [(front, c)]⟩ (List.replicate n (.next 0)) =
      Spec.Cursor.run zk zv limit ⟨[], [(front, .ghost (dir front es))]⟩ (List.replicate n (.next 0)) := by
    intro c hc
    cases hd : dir front es with
    | nil =>
      have : c = .stop := by rw [← hc]; simp [start, first, hd, change]
      rw [this, ghost_run]
      simp only [List.map_nil, List.nil_append, List.take_replicate, Nat.min_self]
      clear hc hd this
      induction n with
      | zero => rfl
      | succ n ih => rw [List.replicate_succ, List.replicate_succ, List.map_cons, ← ih]; rfl
    | cons p ps =>
      have hud := uniq_dir hu front
      have hf : find p.1 es = some p.2 := by
        rw [← find_dir hu front]; exact find_of_mem hud (by rw [hd]; simp)
      have : c = .ghost (dir front es) := by
        rw [← hc]
        simp only [start, hd, first, change, hf, clears, if_true]
        congr 1
        exact since_of (xs := []) (by simp)
      rw [this, hd]
  exact hs _ rfl

example : let t := final 0 0 (new 10 : LHM Nat Nat) [.put 1 10, .put 2 20]
    itRun 0 0 ⟨t, [iterator t true]⟩ [.call .clear, .next 0, .next 0, .next 0] =
      [.call .unit, .next (some (2, 20)), .next (some (1, 10)), .next none] := by decide +kernel

/-- `n` rounds of two `Next`s, each after a `MoveToFront` of the entry that is due. -/
def rounds : Nat → List (Act Nat Nat)
  | 0 => []
  | n + 1 => .next 0 :: .call (.moveToFront 1) :: .next 0 :: .call (.moveToFront 2) :: rounds n

/-- What the rounds return. -/
def returned : Nat → List (Out Nat Nat)
  | 0 => []
  | n + 1 => .next (some (2, 20)) :: .call .unit :: .next (some (1, 10)) :: .call .unit :: returned n

/-- C162. An iteration over two entries need not end: if the entry that is due is moved to the front each
time, `Next` returns the two entries in turn for ever. -/
theorem C162_never_ends (n : Nat) :
    let t := final 0 0 (new 10 : LHM Nat Nat) [.put 1 10, .put 2 20]
    itRun 0 0 ⟨t, [iterator t true]⟩ (rounds n) = returned n := by
  intro t
  rw [one_run]
  have : ∀ n, Spec.Cursor.run 0 0 10 ⟨[(2, 20), (1, 10)], [(true, .live 2)]⟩ (rounds n) = returned n := by
    intro n
    induction n with
    | zero => rfl
    | succ n ih => exact congrArg (fun l => Out.next (some (2, 20)) :: Out.call .unit :: Out.next (some (1, 10)) :: Out.call .unit :: l) ih
  exact this n

example : (returned 2).length = 8 ∧ rounds 2 ≠ [] := by decide

/-- C162, partial. A map with any history and an iterator over it; then any calls and `Next`s such that
no call stores, deletes or pushes out the entry that is due, and none is `Clear` or `MoveToFront`
(`calm`). When `Next` reports the end, every entry of the map at the creation of the iterator whose key
was not stored or deleted since and which is still in the map has been returned; and an iteration from
the front returned nothing but entries the map had at the creation, each at most once, in their order.
Missing: nothing like it holds for the other calls (`C162_claim_false`, `C162_cleared`,
`C162_never_ends`, `C16_delete_ahead_truncates`). -/
theorem C162_calm_partial (zk : K) (zv : V) (limit : Int) (os : List (Op K V)) (front : Bool) (as : List (Act K V))
    (hcalm : calm zk zv limit ⟨Spec.Recency.final zk zv limit [] os,
      [(front, start front (Spec.Recency.final zk zv limit [] os))]⟩ as = true) :
    let es := Spec.Recency.final zk zv limit [] os
    let t := final zk zv (new limit) os
    let outs := itRun zk zv ⟨t, [iterator t front]⟩ (as ++ [.next 0])
    (outs.getLast? = some (.next none) →
      ∀ p ∈ es, untouched p.1 as = true →
        (find p.1 (Spec.Cursor.final zk zv limit ⟨es, [(front, start front es)]⟩ as).es).isSome = true →
        p ∈ yielded outs) ∧
    (front = true → List.Sublist (yielded outs) es) := by
  intro es t outs
  have hrun : outs = Spec.Cursor.run zk zv limit ⟨es, [(front, start front es)]⟩ (as ++ [.next 0]) :=
    one_run zk zv limit os front _
  obtain ⟨ids, hR, hl⟩ := ring_final zk zv limit os
  have hu : Uniq es := hR.lnk.nodup
  obtain ⟨ha, hg⟩ := first_ahead (front := front) hu (xs := []) (ys := dir front es) rfl
  have hrun2 : ∀ (s : St K V) (as : List (Act K V)) (a : Act K V),
      Spec.Cursor.run zk zv limit s (as ++ [a]) = Spec.Cursor.run zk zv limit s as ++
        [(Spec.Cursor.step zk zv limit (Spec.Cursor.final zk zv limit s as) a).2] := by
    intro s as a
    induction as generalizing s with
    | nil => rfl
    | cons b as ih =>
      simp only [List.cons_append, Spec.Cursor.run, ih]
      rfl
  have hy : ∀ (os : List (Out K V)) (r : Option (K × V)), yielded (os ++ [.next r]) = yielded os ++ r.toList := by
    intro os r
    induction os with
    | nil => cases r <;> rfl
    | cons o os ih =>
      match o with
      | .next (some p) => simp only [List.cons_append, yielded, ih]
      | .next none => simpa only [List.cons_append, yielded] using ih
      | .call _ => simpa only [List.cons_append, yielded] using ih
      | .made => simpa only [List.cons_append, yielded] using ih
  obtain ⟨es', c', h1, h2, h3, h4, h5, _⟩ := calm_run zk zv limit front as hu hg hcalm
  have ha' : ahead front es (start front es) = dir front es := ha
  have h4' : front = true → List.Sublist (yielded (Spec.Cursor.run zk zv limit ⟨es, [(front, start front es)]⟩ as) ++
      ahead front es' c') (ahead front es (start front es)) := h4
  have h5' : ∀ p ∈ ahead front es (start front es), untouched p.1 as = true → (find p.1 es').isSome = true →
      p ∈ yielded (Spec.Cursor.run zk zv limit ⟨es, [(front, start front es)]⟩ as) ++ ahead front es' c' := h5
  have h1' : Spec.Cursor.final zk zv limit ⟨es, [(front, start front es)]⟩ as = ⟨es', [(front, c')]⟩ := h1
  rw [ha'] at h4' h5'
  rw [hrun, hrun2, h1']
  simp only [Spec.Cursor.step, List.getElem?_cons_zero]
  rw [hy]
  cases c' with
  | gone _ _ => exact absurd h3 (by simp [Good])
  | ghost _ => exact absurd h3 (by simp [Good])
  | stop =>
    have e1 : (Spec.Cursor.next front es' (.stop : Cur K V)).2 = none := rfl
    rw [e1]
    simp only [ahead, List.append_nil, Option.toList_none] at h4' h5' ⊢
    refine ⟨fun _ p hp hun hfi => h5' p ((mem_dir front).2 hp) hun hfi, ?_⟩
    intro hf; subst hf
    exact h4' rfl
  | live k =>
    obtain ⟨v, hv⟩ := Option.isSome_iff_exists.1 (show (find k es').isSome = true from h3)
    have e1 : (Spec.Cursor.next front es' (.live k : Cur K V)).2 = some (k, v) := by
      simp [Spec.Cursor.next, hv]
    rw [e1]
    refine ⟨fun hlast => by simp at hlast, ?_⟩
    intro hf; subst hf
    refine List.Sublist.trans ?_ (h4' rfl)
    refine List.Sublist.append (List.Sublist.refl _) ?_
    have : (k, v) ∈ since k es' := by
      obtain ⟨xs, ys, rfl⟩ := mem_split hv
      rw [since_of (uniq_split h2).1]; simp
    simpa [ahead, dir] using this

example : calm 0 0 3 ⟨Spec.Recency.final 0 0 3 [] [.put 1 10, .put 2 20, .put 3 30],
      [(true, start true (Spec.Recency.final 0 0 3 [] [.put 1 10, .put 2 20, .put 3 30]))]⟩
      ([.next 0, .call (.put 4 40), .call (.delete 3), .next 0] : List (Act Nat Nat)) = true ∧
    (let t := final 0 0 (new 3 : LHM Nat Nat) [.put 1 10, .put 2 20, .put 3 30]
     itRun 0 0 ⟨t, [iterator t true]⟩ [.next 0, .call (.put 4 40), .call (.delete 3), .next 0, .next 0] =
      [.next (some (3, 30)), .call .unit, .call .unit, .next (some (2, 20)), .next none]) := by decide +kernel

end Gofer.Props.LinkedIter
