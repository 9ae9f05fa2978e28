import Verif.Proof.LockedObj
import Verif.Proof.LimitHashMap
import Verif.Spec.LinearRel
import Verif.Props.TreeMap
/-! # From the sequential models to the specifications of the concurrent containers -/
namespace Gofer.Linear
open Gofer.Spec.LinearRel

section
variable {ι S Op R : Type} [DecidableEq ι]
open Gofer.Locked

theorem results_length (idx : Op → ι) (ap : Op → S → S × R) (os : List Op) : ∀ s, (results idx ap s os).length = os.length := by
  induction os with
  | nil => intro s; rfl
  | cons op os ih => intro s; simp [results, ih]

theorem results_get (idx : Op → ι) (ap : Op → S → S × R) (os : List Op) : ∀ (s : ι → S) (i : Nat) (op : Op), os[i]? = some op →
    (results idx ap s os)[i]? = some (ap op (play idx ap s (os.take i) (idx op))).2 := by
  induction os with
  | nil => intro s i op h; simp at h
  | cons o os ih =>
    intro s i op h
    cases i with
    | zero => simp at h; subst h; simp [results, play]
    | succ i => simp at h; simp [results, play, ih _ i op h]
end

section
open Gofer.TreeMap
open Gofer.Locked (play results)
variable {K V : Type} [LinearOrder K]

theorem tree_play (zv : V) (os : List (OpA K V)) : ∀ m : TM K V,
    play (fun _ => ()) (fun op m => stepA zv m op) (fun _ => m) os () = final zv m (bases os) := by
  induction os with
  | nil => intro m; rfl
  | cons o os ih =>
    intro m
    refine (ih (stepA zv m o).1).trans ?_
    cases o <;> simp [bases, stepA, final]

theorem tree_ok (zv : V) (os : List (OpA K V)) :
    okTree zv os (results (fun _ => ()) (fun op m => stepA zv m op) (fun _ => new) os) := by
  refine ⟨results_length _ _ _ _, fun i op r h1 h2 => ?_⟩
  rw [results_get _ _ _ _ i op h1, tree_play] at h2
  injection h2 with h2
  subst h2
  cases op with
  | base op =>
    have h := (run_spec zv (m := new) (s := fun _ => none) ⟨List.Pairwise.nil, by simp [new]⟩ (bases (os.take i))).2
    exact congrArg ResA.base (step_spec zv h op).1
  | ascend f =>
    obtain ⟨l, h3, h4, h5, h6⟩ := Props.TreeMap.C12_treeMap_iteration zv (bases (os.take i))
    exact ⟨l, h3, h4, by simp only [stepA]; rw [h5]⟩
  | descend f =>
    obtain ⟨l, h3, h4, h5, h6⟩ := Props.TreeMap.C12_treeMap_iteration zv (bases (os.take i))
    exact ⟨l, h3, h4, by simp only [stepA]; rw [h6]⟩
end

section
open Gofer.Consistenthash
open Gofer.Locked (play results)
variable {P : Type} [LinearOrder P]

theorem ring_play (hash : List UInt8 → P) (os : List OpC) : ∀ t : CH P,
    play (fun _ => ()) (fun op t => stepC hash t op) (fun _ => t) os () = (writes os).foldl (step hash) t := by
  induction os with
  | nil => intro t; rfl
  | cons o os ih =>
    intro t
    refine (ih (stepC hash t o).1).trans ?_
    cases o <;> simp [writes, stepC, step]

theorem ring_ok (hash : List UInt8 → P) (r : Nat) (os : List OpC) :
    okRing hash r os (results (fun _ => ()) (fun op t => stepC hash t op) (fun _ => new r) os) := by
  refine ⟨results_length _ _ _ _, fun i op h1 => ?_⟩
  rw [results_get _ _ _ _ i op h1, ring_play]
  cases op <;> rfl
end

section
open Gofer.LimitHashMap
open Gofer.Locked (play results)
open Gofer.Spec.LimitHashMap (Op)
variable {K V : Type} [DecidableEq K] [GoValue V]

theorem seg_ok (hash : K → UInt64) (cap : Int) (n : Nat) (os : List (Op1 K V)) : ∀ (st : Nat → Seg V) (s : Nat → List (UInt64 × V)),
    (∀ i, SInv cap (st i) ((s i).map (ren id toAny))) →
    results (Op1.seg hash n) (fun op s => step1 hash cap s op) st os = segRun GoValue.zero GoValue.isNil cap hash n s os := by
  induction os with
  | nil => intro st s _; rfl
  | cons o os ih =>
    intro st s h
    have hinv : Inv (⟨cap, st, hash, n⟩ : LHM K V) s := ⟨h⟩
    have same : ∀ i, (fun j => if j = i then st i else st j) = st := by
      intro i; funext j; by_cases e : j = i <;> simp [e]
    simp only [results, segRun]
    suffices hh : (step1 hash cap (st (o.seg hash n)) o).2 = (segStep GoValue.zero GoValue.isNil cap hash n s o).2 ∧
        ∀ i, SInv cap ((fun j => if j = o.seg hash n then (step1 hash cap (st (o.seg hash n)) o).1 else st j) i)
          (((segStep GoValue.zero GoValue.isNil cap hash n s o).1 i).map (ren id toAny)) by
      rw [hh.1]; congr 1; exact ih _ _ hh.2
    cases o with
    | put k v =>
      have := step_spec hinv (.put k v)
      simp only [step, put, segIdx] at this
      simp only [step1, Op1.seg, segStep]
      cases hp : (st ((hash k).toNat % n)).put cap (hash k) (toAny v) with
      | none =>
        rw [hp] at this
        refine ⟨this.1, fun i => ?_⟩
        have e := congrFun (same ((hash k).toNat % n)) i
        have h2 := this.2.1.seg i
        rw [show (⟨cap, st, hash, n⟩ : LHM K V).segments i = _ from e.symm] at h2
        exact h2
      | some x =>
        rw [hp] at this
        exact ⟨this.1, this.2.1.seg⟩
    | get k =>
      have := step_spec hinv (.get k)
      refine ⟨this.1, fun i => ?_⟩
      rw [show (step1 hash cap (st (Op1.seg hash n (.get k : Op1 K V))) (.get k)).1 = st (Op1.seg hash n (.get k : Op1 K V)) from rfl, same]
      exact h i
    | del k =>
      have := step_spec hinv (.del k)
      exact ⟨rfl, this.2.1.seg⟩
    | contains k =>
      have := step_spec hinv (.contains k)
      refine ⟨this.1, fun i => ?_⟩
      rw [show (step1 hash cap (st (Op1.seg hash n (.contains k : Op1 K V))) (.contains k)).1 =
        st (Op1.seg hash n (.contains k : Op1 K V)) from rfl, same]
      exact h i
    | clear1 i =>
      refine ⟨rfl, fun j => ?_⟩
      simp only [step1, Op1.seg, segStep]
      by_cases e : j = i
      · simp only [e, if_true]; exact seg_clear (h i)
      · simp only [e, if_false]; exact h j
    | len1 i =>
      refine ⟨?_, fun j => ?_⟩
      · simp only [step1, Op1.seg, segStep]
        obtain ⟨ids, hl⟩ := (h i).lnk
        rw [hl.len_eq, List.length_map]
      · rw [show (step1 hash cap (st (Op1.seg hash n (.len1 i : Op1 K V))) (.len1 i)).1 = st (Op1.seg hash n (.len1 i : Op1 K V)) from rfl, same]
        exact h j
end
end Gofer.Linear
