import Verif.Proof.Locked
import Verif.Model.LockedObj
/-! # The containers do what their sequential models say -/
namespace Gofer

namespace Locked
/-- One part: the results are those of the sequential object. -/
theorem results_unit {S Op R : Type} (ap : Op → S → S × R) (run : S → List Op → List R) (h0 : ∀ s, run s [] = [])
    (h1 : ∀ s op os, run s (op :: os) = (ap op s).2 :: run (ap op s).1 os) (os : List Op) : ∀ s : S,
    results (fun _ => ()) ap (fun _ => s) os = run s os := by
  induction os with
  | nil => intro s; exact (h0 s).symm
  | cons op os ih =>
    intro s
    rw [h1, ← ih]
    simp only [results]
    congr 1
end Locked

namespace LimitMap
open Gofer.Spec.LimitMap (Op Res)
variable {K V : Type} [DecidableEq K]

/-- What remains of the loop of removals. -/
def delsRest : Loc K V → LM K V → LM K V × Res V
  | .dels ks, t => (ks.foldl del t, .unit)
  | .delk k ks, t => (ks.foldl del { t with cache := t.cache.delete k }, .unit)
  | _, t => (t, .unit)

/-- What remains of a method. -/
def rest (zv : V) : Op K V → Loc K V → LM K V → LM K V × Res V
  | .get k, .look, t => step zv t (.get k)
  | .get _, .read e, t => (t, resVal zv ((t.order.val e).map Prod.snd))
  | .put k v, .look, t => step zv t (.put k v)
  | .put _ v, .set e k' prev, t => ({ t with order := (t.order.setVal e (k', v)).moveToFront e }, .val prev true)
  | .put _ _, .front e prev, t => ({ t with order := t.order.moveToFront e }, .val prev true)
  | .put k v, .full, t =>
    let t :=
      if (t.cache.size : Int) > t.capacity then
        let oldest := t.order.back
        if oldest ≠ 0 then
          let order := t.order.remove oldest
          match order.val oldest with
          | some e => { t with order := order, cache := t.cache.delete e.1 }
          | none => { t with order := order }
        else t
      else t
    ({ t with order := (t.order.pushFront (k, v)).1, cache := t.cache.store k (t.order.pushFront (k, v)).2 }, .val zv false)
  | .put k v, .unkey e, t =>
    let t := match t.order.val e with
      | some x => { t with cache := t.cache.delete x.1 }
      | none => t
    ({ t with order := (t.order.pushFront (k, v)).1, cache := t.cache.store k (t.order.pushFront (k, v)).2 }, .val zv false)
  | .put k v, .push, t =>
    ({ t with order := (t.order.pushFront (k, v)).1, cache := t.cache.store k (t.order.pushFront (k, v)).2 }, .val zv false)
  | .put k _, .key e, t => ({ t with cache := t.cache.store k e }, .val zv false)
  | .del _, l, t => delsRest l t
  | .removeMulti _, l, t => delsRest l t
  | .len, _, t => (t, .num t.cache.size)
  | _, _, t => (t, .unit)

theorem del_found {t : LM K V} {k : K} {e : Nat} (h : t.cache.load k = some e) :
    del t k = { t with order := t.order.remove e, cache := t.cache.delete k } := by
  unfold del; rw [h]

theorem del_absent {t : LM K V} {k : K} (h : t.cache.load k = none) : del t k = t := by
  unfold del; rw [h]

theorem dels_step (l : Loc K V) (t : LM K V) :
    match delsStep l t with
    | (t', .inl l') => delsRest l t = delsRest l' t'
    | (t', .inr r) => delsRest l t = (t', r) := by
  cases l with
  | dels ks =>
    cases ks with
    | nil => simp [delsStep, delsRest]
    | cons k ks => cases h : t.cache.load k <;> simp [delsStep, delsRest, h, del_found, del_absent]
  | _ => simp [delsStep, delsRest]

theorem impl (zv : V) : Locked.Impl (obj (K := K) zv) (fun op t => step zv t op) := by
  refine Locked.impl_of_rest _ _ (rest zv) ?_ ?_ ?_
  · intro op t
    cases op <;> simp [obj, locStart, rest, delsRest, step, removeMulti, len]
  · intro op l t
    cases op with
    | get k =>
      cases l with
      | look =>
        cases h : t.cache.load k <;> simp [obj, locStep, rest, step, get, h, resVal]
      | _ => simp [obj, locStep, rest]
    | put k v =>
      cases l with
      | look =>
        cases h : t.cache.load k with
        | none =>
          by_cases h1 : (t.cache.size : Int) > t.capacity
          · by_cases h2 : t.order.back = 0
            · simp [obj, locStep, rest, step, put, h, resVal, h1, h2]
            · cases h3 : (t.order.remove t.order.back).val t.order.back <;> simp [obj, locStep, rest, step, put, h, resVal, h1, h2, h3]
          · simp [obj, locStep, rest, step, put, h, resVal, h1]
        | some e => cases h2 : t.order.val e <;> simp [obj, locStep, rest, step, put, h, h2, resVal]
      | full =>
        by_cases h1 : (t.cache.size : Int) > t.capacity
        · by_cases h2 : t.order.back = 0
          · simp [obj, locStep, rest, h1, h2]
          · cases h3 : (t.order.remove t.order.back).val t.order.back <;> simp [obj, locStep, rest, h1, h2, h3]
        · simp [obj, locStep, rest, h1]
      | unkey e => cases h : t.order.val e <;> simp [obj, locStep, rest, h]
      | _ => simp [obj, locStep, rest]
    | del k =>
      have := dels_step l t
      simp only [obj, locStep, rest]
      rcases hd : delsStep l t with ⟨t', z⟩
      rw [hd] at this
      cases z <;> exact this
    | removeMulti k =>
      have := dels_step l t
      simp only [obj, locStep, rest]
      rcases hd : delsStep l t with ⟨t', z⟩
      rw [hd] at this
      cases z <;> exact this
    | len => simp [obj, locStep, rest]
  · intro op hr l t
    cases op with
    | get k =>
      cases l with
      | look => cases h : t.cache.load k <;> simp [obj, locStep, h]
      | _ => simp [obj, locStep]
    | len => simp [obj, locStep]
    | _ => simp [obj, rlock] at hr
end LimitMap

namespace LimitHashMap
open Gofer.Spec.LimitHashMap (Op Res)
variable {K V : Type} [GoValue V]

/-- What remains of a method. -/
def rest (hash : K → UInt64) (cap : Int) : Op1 K V → Loc V → Seg V → Seg V × Res V
  | .get k, .look, s => step1 hash cap s (.get k)
  | .get _, .read e, s =>
    match s.order.val e with
    | some x => (s, resVal x.2)
    | none => (s, .val GoValue.zero false)
  | .contains k, _, s => (s, .ok (s.cache.load (hash k)).isSome)
  | .put k v, .look, s => step1 hash cap s (.put k v)
  | .put _ v, .set e h prev, s => ({ s with order := s.order.setVal e (h, toAny v) }, .val prev true)
  | .put k v, .full, s =>
    let s :=
      if (s.order.len : Int) ≥ cap then
        let oldest := s.order.back
        if oldest ≠ 0 then
          let order := s.order.remove oldest
          match order.val oldest with
          | some e => { s with order := order, cache := s.cache.delete e.1 }
          | none => { s with order := order }
        else s
      else s
    ({ s with order := (s.order.pushFront (hash k, toAny v)).1, cache := s.cache.store (hash k) (s.order.pushFront (hash k, toAny v)).2 },
      .val GoValue.zero false)
  | .put k v, .unkey e, s =>
    let s := match s.order.val e with
      | some x => { s with cache := s.cache.delete x.1 }
      | none => s
    ({ s with order := (s.order.pushFront (hash k, toAny v)).1, cache := s.cache.store (hash k) (s.order.pushFront (hash k, toAny v)).2 },
      .val GoValue.zero false)
  | .put k v, .push, s =>
    ({ s with order := (s.order.pushFront (hash k, toAny v)).1, cache := s.cache.store (hash k) (s.order.pushFront (hash k, toAny v)).2 },
      .val GoValue.zero false)
  | .put k _, .key e, s => ({ s with cache := s.cache.store (hash k) e }, .val GoValue.zero false)
  | .del k, .look, s => step1 hash cap s (.del k)
  | .del k, .delk, s => ({ s with cache := s.cache.delete (hash k) }, .unit)
  | .clear1 i, .look, s => step1 hash cap s (.clear1 i)
  | .clear1 _, .delk, s => ({ s with order := s.order.init }, .unit)
  | .len1 _, _, s => (s, .num s.order.len)
  | _, _, s => (s, .unit)

theorem impl (hash : K → UInt64) (cap : Int) (segs : Nat) :
    Locked.Impl (obj (V := V) hash cap segs) (fun op s => step1 hash cap s op) := by
  refine Locked.impl_of_rest _ _ (rest hash cap) ?_ ?_ ?_
  · intro op s
    cases op <;> simp [obj, rest, step1]
  · intro op l s
    cases op with
    | get k =>
      cases l with
      | look =>
        cases h : s.cache.load (hash k) with
        | none => simp [obj, locStep, rest, step1, Seg.get, h, resVal]
        | some e => cases h2 : s.order.val e <;> simp [obj, locStep, rest, step1, Seg.get, h, h2, resVal]
      | read e => cases h2 : s.order.val e <;> simp [obj, locStep, rest, h2]
      | _ => simp [obj, locStep, rest]
    | put k v =>
      cases l with
      | look =>
        cases h : s.cache.load (hash k) with
        | none =>
          by_cases h1 : (s.order.len : Int) ≥ cap
          · by_cases h2 : s.order.back = 0
            · simp [obj, locStep, rest, step1, Seg.put, h, resVal, h1, h2]
            · cases h3 : (s.order.remove s.order.back).val s.order.back <;>
                simp [obj, locStep, rest, step1, Seg.put, h, resVal, h1, h2, h3]
          · simp [obj, locStep, rest, step1, Seg.put, h, resVal, h1]
        | some e =>
          cases h2 : s.order.val e with
          | none => simp [obj, locStep, rest, step1, Seg.put, h, h2]
          | some x => cases h3 : x.2 <;> simp [obj, locStep, rest, step1, Seg.put, h, h2, h3, resVal]
      | full =>
        by_cases h1 : (s.order.len : Int) ≥ cap
        · by_cases h2 : s.order.back = 0
          · simp [obj, locStep, rest, h1, h2]
          · cases h3 : (s.order.remove s.order.back).val s.order.back <;> simp [obj, locStep, rest, h1, h2, h3]
        · simp [obj, locStep, rest, h1]
      | unkey e => cases h : s.order.val e <;> simp [obj, locStep, rest, h]
      | _ => simp [obj, locStep, rest]
    | del k =>
      cases l with
      | look => cases h : s.cache.load (hash k) <;> simp [obj, locStep, rest, step1, Seg.del, h]
      | _ => simp [obj, locStep, rest]
    | clear1 i => cases l <;> simp [obj, locStep, rest, step1, Seg.clear]
    | contains k => simp [obj, locStep, rest]
    | len1 i => simp [obj, locStep, rest]
  · intro op hr l s
    cases op with
    | get k =>
      cases l with
      | look => cases h : s.cache.load (hash k) <;> simp [obj, locStep, h]
      | read e => cases h : s.order.val e <;> simp [obj, locStep, h]
      | _ => simp [obj, locStep]
    | contains k => simp [obj, locStep]
    | _ => simp [obj, rlock] at hr
end LimitHashMap

namespace TreeMap
open Gofer.Spec.TreeMap (Op Res)
variable {K V : Type} [LinearOrder K]

/-- What remains of a method. -/
def rest (zv : V) : OpA K V → List (K × V) → TM K V → TM K V × ResA K V
  | .base op, _, m => stepA zv m (.base op)
  | .ascend iter, seen, m => (m, .calls (iterate iter (m.tree.drop seen.length) seen))
  | .descend iter, seen, m => (m, .calls (iterate iter (m.tree.reverse.drop seen.length) seen))

theorem drop_cons {α : Type} {l : List α} {i : Nat} {y : α} (h : l[i]? = some y) : l.drop i = y :: l.drop (i + 1) := by
  obtain ⟨h1, h2⟩ := List.getElem?_eq_some_iff.mp h
  rw [List.drop_eq_getElem_cons h1, h2]

theorem impl (zv : V) : Locked.Impl (obj (K := K) zv) (fun op m => stepA zv m op) := by
  refine Locked.impl_of_rest _ _ (rest zv) ?_ ?_ ?_
  · intro op m
    cases op <;> simp [obj, rest, stepA, ascend, descend]
  · intro op l m
    cases op with
    | base op => simp [obj, rest, locStep, stepA]
    | ascend iter =>
      cases h : m.tree[l.length]? with
      | none =>
        have : m.tree.drop l.length = [] := List.drop_eq_nil_of_le (List.getElem?_eq_none_iff.mp h)
        simp [obj, rest, locStep, h, this, iterate]
      | some y =>
        cases h2 : iter l y.key y.value <;> simp [obj, rest, locStep, h, h2, drop_cons h, iterate]
    | descend iter =>
      cases h : m.tree.reverse[l.length]? with
      | none =>
        have : m.tree.reverse.drop l.length = [] := List.drop_eq_nil_of_le (List.getElem?_eq_none_iff.mp h)
        simp only [obj, rest, locStep, h, this, iterate]
      | some y =>
        cases h2 : iter l y.key y.value <;> simp only [obj, rest, locStep, h, h2, drop_cons h, iterate, if_true, if_false, Bool.false_eq_true, List.length_append, List.length_singleton]
  · intro op hr l m
    cases op with
    | base op =>
      cases op with
      | get k => simp [obj, locStep, step]
      | _ => simp [obj, rlock] at hr
    | ascend iter =>
      cases h : m.tree[l.length]? with
      | none => simp [obj, locStep, h]
      | some y => cases h2 : iter l y.key y.value <;> simp [obj, locStep, h, h2]
    | descend iter =>
      cases h : m.tree.reverse[l.length]? with
      | none => simp only [obj, locStep, h]
      | some y => cases h2 : iter l y.key y.value <;> simp only [obj, locStep, h, h2, if_true, if_false, Bool.false_eq_true]
end TreeMap

namespace Lru
open Gofer.Spec.Lru (Op Res)
variable {K V : Type} [DecidableEq K] [GoValue V]

/-- What remains of a method. -/
def rest (str : String → K) : Op K V → List String → LC K V → LC K V × Res V
  | .removeMulti _, ks, c => (removeMulti str c ks, .unit)
  | op, _, c => step str c op

theorem impl (str : String → K) : Locked.Impl (obj (V := V) str) (fun op c => step str c op) := by
  refine Locked.impl_of_rest _ _ (rest str) ?_ ?_ ?_
  · intro op c
    cases op <;> simp [obj, rest, step]
  · intro op l c
    cases op with
    | removeMulti ks => cases l <;> simp [obj, rest, locStep, removeMulti]
    | _ => simp [obj, rest, locStep]
  · intro op hr; simp [obj] at hr
end Lru

namespace Consistenthash
variable {P : Type} [LinearOrder P]

/-- What remains of a method. -/
def rest (hash : List UInt8 → P) : OpC → Loc → CH P → CH P × ResC
  | .add _, .keys ks, t => (add hash t ks, .unit)
  | .add _, .reps k is ks, t => (add hash (is.foldl (addReplica hash k) t) ks, .unit)
  | op, _, t => stepC hash t op

theorem impl (hash : List UInt8 → P) : Locked.Impl (obj hash) (fun op t => stepC hash t op) := by
  refine Locked.impl_of_rest _ _ (rest hash) ?_ ?_ ?_
  · intro op t
    cases op <;> simp [obj, rest, stepC]
  · intro op l t
    cases op with
    | add ks =>
      cases l with
      | keys ks =>
        cases ks with
        | nil => simp [obj, rest, locStep, add]
        | cons k ks => cases h : t.nodes.load k <;> simp [obj, rest, locStep, add, addKey, h]
      | reps k is ks => cases is <;> simp [obj, rest, locStep]
      | one => simp [obj, rest, locStep]
    | _ => simp [obj, rest, locStep]
  · intro op hr l t
    cases op with
    | add ks => simp [obj, rlock] at hr
    | del k => simp [obj, rlock] at hr
    | nodes => simp [obj, rlock] at hr
    | _ => simp [obj, locStep, stepC]
end Consistenthash
end Gofer
