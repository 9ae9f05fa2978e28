import Verif.Proof.Linear
import Verif.Props.LimitMap
import Verif.Props.Lru
/-!
# The containers under concurrent use: properties C156 to C160

An execution is any list of actions of any number of goroutines that the mutexes allow, from a new container. What is seen is the list of calls and returns.
-/
namespace Gofer.Props.Linear
open Gofer.Locked
open Gofer.Spec.Linear
open Gofer.Spec.LinearRel

/-! ## C156 -/

/-- C156. `LimitMap`: every concurrent history is explained by one order of the calls that respects time and in which the sequential map bounded by evicting the
oldest Put gives the same results. -/
theorem C156_limitMap_linearizable {K V : Type} [DecidableEq K] (zv : V) (cap : Int) (n : Nat)
    (as : List (Act n (Spec.LimitMap.Op K V))) (s : St n Unit _ _ _ _)
    (h : exec (LimitMap.obj zv) (init fun _ => LimitMap.new cap) as = some s) :
    Linearizable (Spec.LimitMap.run zv cap []) s.hist := by
  have := linearizable (LimitMap.impl zv) _ as s h
  have e : results (LimitMap.obj zv).idx (fun op t => LimitMap.step zv t op) (fun _ => LimitMap.new cap) =
      Spec.LimitMap.run (K := K) zv cap [] := by
    funext os
    rw [← Props.LimitMap.C18_limitMap_refines]
    exact results_unit _ (LimitMap.run zv) (fun _ => rfl) (fun _ _ _ => rfl) os _
  rw [e] at this
  exact this

/-- C156. If moreover nobody is inside, the container is what the sequential one is after the calls in that order: nothing is lost or left half done. -/
theorem C156_at_rest {K V : Type} [DecidableEq K] (zv : V) (cap : Int) (n : Nat)
    (as : List (Act n (Spec.LimitMap.Op K V))) (s : St n Unit _ _ _ _)
    (h : exec (LimitMap.obj zv) (init fun _ => LimitMap.new cap) as = some s) (hq : ∀ t, (s.pc t).holds = none) :
    LinearizableTo (fun os rs => rs = Spec.LimitMap.run zv cap [] os ∧ s.st () = LimitMap.final zv (LimitMap.new cap) os) s.hist := by
  have hi := inv_exec (LimitMap.impl zv) as (inv_init _ _ _) h
  refine ⟨s.log, hi.nodup, hi.called, hi.returned, ⟨?_, ?_⟩, hi.order⟩
  · rw [hi.vals, ← Props.LimitMap.C18_limitMap_refines]
    exact results_unit _ (LimitMap.run zv) (fun _ => rfl) (fun _ _ _ => rfl) _ _
  · rw [hi.quiet () (fun t op l hin _ => absurd (inside_holds hin) (by rw [hq t]; nofun))]
    generalize s.log.map (fun x => x.2.1) = os
    generalize LimitMap.new cap = t
    induction os generalizing t with
    | nil => rfl
    | cons o os ih => exact ih (LimitMap.step zv t o).1

/-- Goroutine 0 puts key 1 while goroutine 1 asks for it: two calls overlap; the second waits for the first. -/
def twoCalls : List (Act 2 (Spec.LimitMap.Op Nat Nat)) :=
  [.call 0 (.put 1 7), .call 1 (.get 1), .lock 0, .micro 0, .micro 0, .micro 0, .micro 0, .unlock 0, .lock 1, .micro 1, .micro 1, .unlock 1, .ret 1, .ret 0]

example : (exec (LimitMap.obj 0) (init fun _ => LimitMap.new 4) twoCalls).map St.hist =
    some [.inv 0 (.put 1 7), .inv 1 (.get 1), .res 1 (.val 7 true), .res 0 (.val 0 false)] := by decide +kernel

/-- The second goroutine does not get in between two steps of the first. -/
example : (exec (LimitMap.obj 0) (init fun _ => LimitMap.new 4) (twoCalls.take 6 ++ [.lock 1])).isNone = true := by decide +kernel

/-- Two readers are inside at the same time. -/
example : (exec (n := 2) (LimitMap.obj (K := Nat) 0) (init fun _ => LimitMap.new 4)
    [.call 0 (.get 1), .call 1 .len, .lock 0, .lock 1, .micro 1, .micro 0]).isSome = true := by decide +kernel

/-! ## C157 -/

/-- C157. `LruCache`: every concurrent history is explained by one order of the calls that respects time and in which the sequential least-recently-used cache gives
the same results. -/
theorem C157_lru_linearizable {K V : Type} [DecidableEq K] [GoValue V] (str : String → K) (M : Int) (n : Nat)
    (as : List (Act n (Spec.Lru.Op K V))) (s : St n Unit _ _ _ _)
    (h : exec (Lru.obj str) (init fun _ => Lru.new M) as = some s) :
    Linearizable (Spec.Lru.run str GoValue.zero M []) s.hist := by
  have := linearizable (Lru.impl str) _ as s h
  have e : results (Lru.obj (V := V) str).idx (fun op t => Lru.step str t op) (fun _ => Lru.new M) =
      Spec.Lru.run str GoValue.zero M [] := by
    funext os
    rw [← Props.Lru.C34_lru_refines]
    exact results_unit _ (Lru.run str) (fun _ => rfl) (fun _ _ _ => rfl) os _
  rw [e] at this
  exact this

example : (exec (n := 2) (Lru.obj (V := Nat) id) (init fun _ => Lru.new 2)
    [.call 0 (.add (some "a") 1), .call 1 (.removeMulti ["a", "b"]), .lock 0, .micro 0, .unlock 0, .lock 1, .micro 1, .micro 1, .micro 1, .unlock 1,
      .ret 0, .call 0 (.get (some "a")), .lock 0, .micro 0, .unlock 0, .ret 0]).map (fun s => s.hist.length) = some 5 := by decide +kernel

/-! ## C158 -/

/-- C158. `TreeMap` with its iterations: every concurrent history is explained by one order of the calls that respects time, in which Put, Get and Del answer as a
partial function does and an iteration calls back with the entries of one moment, in the order of the keys. -/
theorem C158_treeMap_linearizable {K V : Type} [LinearOrder K] (zv : V) (n : Nat) (as : List (Act n (TreeMap.OpA K V))) (s : St n Unit _ _ _ _)
    (h : exec (TreeMap.obj zv) (init fun _ => TreeMap.new) as = some s) :
    LinearizableTo (okTree zv) s.hist := by
  obtain ⟨L, h1, h2, h3, h4, h5⟩ := linearizable (TreeMap.impl zv) _ as s h
  refine ⟨L, h1, h2, h3, ?_, h5⟩
  rw [h4]
  exact Linear.tree_ok zv _

/-- An iteration with a Put waiting: it calls back for both entries, and the Put comes after. -/
example : (exec (n := 2) (TreeMap.obj (K := Nat) (0 : Nat)) (init fun _ => TreeMap.new)
    [.call 0 (.base (.put 5 1)), .lock 0, .micro 0, .unlock 0, .ret 0, .call 0 (.base (.put 3 2)), .lock 0, .micro 0, .unlock 0, .ret 0,
      .call 0 (.ascend fun _ _ _ => true), .lock 0, .micro 0, .call 1 (.base (.put 4 9)), .micro 0, .micro 0, .unlock 0, .lock 1, .micro 1]).map
      (fun s => s.log.map fun x => match x.2.2 with | .calls c => c | _ => []) = some [[], [], [(3, 2), (5, 1)], []] := by decide +kernel

/-! ## C159 -/

/-- C159. `Consistenthash`: every concurrent history is explained by one order of the calls that respects time, in which every lookup is answered by the ring after
the Adds and Dels that come before it: no lookup sees a ring with some replicas of a node. -/
theorem C159_consistenthash_linearizable {P : Type} [LinearOrder P] (hash : List UInt8 → P) (r n : Nat) (as : List (Act n Consistenthash.OpC))
    (s : St n Unit _ _ _ _) (h : exec (Consistenthash.obj hash) (init fun _ => Consistenthash.new r) as = some s) :
    LinearizableTo (okRing hash r) s.hist := by
  obtain ⟨L, h1, h2, h3, h4, h5⟩ := linearizable (Consistenthash.impl hash) _ as s h
  refine ⟨L, h1, h2, h3, ?_, h5⟩
  rw [h4]
  exact Linear.ring_ok hash r _

example : (exec (n := 2) (Consistenthash.obj Consistenthash.crc) (init fun _ => Consistenthash.new 2)
    [.call 0 (.add [5]), .call 1 .nodes, .lock 0, .micro 0, .micro 0, .micro 0, .micro 0, .micro 0, .unlock 0, .lock 1, .micro 1, .unlock 1, .ret 1]).map
      (fun s => s.log.map fun x => x.2.2) = some [.unit, .nodes [5]] := by decide +kernel

/-! ## C160 -/

/-- C160. `LimitHashMap`: every concurrent history of Put, Get, Del, Contains and of what Clear and Len do to each segment is explained by one order of the calls
that respects time and in which the segments, bounded by evicting the oldest insertion, give the same results. Keys are known by their hashes. -/
theorem C160_segments_linearizable {K V : Type} [DecidableEq K] [GoValue V] (hash : K → UInt64) (cap : Int) (segs n : Nat)
    (as : List (Act n (LimitHashMap.Op1 K V))) (s : St n Nat _ _ _ _)
    (h : exec (LimitHashMap.obj hash cap segs) (init fun _ => LimitHashMap.Seg.new) as = some s) :
    Linearizable (segRun GoValue.zero GoValue.isNil cap hash segs (fun _ => [])) s.hist := by
  have := linearizable (LimitHashMap.impl hash cap segs) _ as s h
  have e : results (LimitHashMap.obj (V := V) hash cap segs).idx (fun op s => LimitHashMap.step1 hash cap s op)
      (fun _ => LimitHashMap.Seg.new) = segRun GoValue.zero GoValue.isNil cap hash segs (fun _ => []) := by
    funext os
    exact Linear.seg_ok hash cap segs os _ _ (fun _ => LimitHashMap.sinv_new cap)
  rw [e] at this
  exact this

/-- The goroutine of an action. -/
def actor {n : Nat} {Op : Type} : Act n Op → Fin n
  | .call t _ => t
  | .lock t => t
  | .micro t => t
  | .unlock t => t
  | .ret t => t

/-- The calls `Len` of a map with two segments consists of, by goroutine 0: whether the actions of that goroutine are these. -/
def isLen2 : List (Act 2 (LimitHashMap.Op1 UInt64 Nat)) → Bool
  | [.call _ (.len1 0), .lock _, .micro _, .unlock _, .ret _, .call _ (.len1 1), .lock _, .micro _, .unlock _, .ret _] => true
  | _ => false

/-- Number of entries. -/
def entries (s : St 2 Nat (LimitHashMap.Seg Nat) (LimitHashMap.Op1 UInt64 Nat) (Spec.LimitHashMap.Res Nat) (LimitHashMap.Loc Nat)) : Nat :=
  (s.st 0).order.len + (s.st 1).order.len

/-- C160, in full: what `Len` returns was the number of entries at some moment. For two segments: goroutine 0 does nothing but `Len`, which adds `a` and `b`. -/
def C160_len_claim : Prop :=
  ∀ (as : List (Act 2 (LimitHashMap.Op1 UInt64 Nat))) (s : St 2 Nat _ _ _ _) (i j a b : Nat),
    exec (LimitHashMap.obj id 8 2) (init fun _ => LimitHashMap.Seg.new) as = some s →
    isLen2 (as.filter fun x => actor x = 0) = true →
    Ev.inv i (.len1 0) ∈ s.hist → Ev.res i (.num a) ∈ s.hist → Ev.inv j (.len1 1) ∈ s.hist → Ev.res j (.num b) ∈ s.hist →
    ∃ k s', exec (LimitHashMap.obj id 8 2) (init fun _ => LimitHashMap.Seg.new) (as.take k) = some s' ∧ entries s' = a + b

/-- Goroutine 1 puts key 0, then deletes it, then puts key 1; `Len` reads segment 0 before and segment 1 after. -/
def lenRace : List (Act 2 (LimitHashMap.Op1 UInt64 Nat)) :=
  [.call 1 (.put 0 5), .lock 1, .micro 1, .micro 1, .micro 1, .micro 1, .unlock 1, .ret 1,
    .call 0 (.len1 0), .lock 0, .micro 0, .unlock 0, .ret 0,
    .call 1 (.del 0), .lock 1, .micro 1, .micro 1, .unlock 1, .ret 1,
    .call 1 (.put 1 6), .lock 1, .micro 1, .micro 1, .micro 1, .micro 1, .unlock 1, .ret 1,
    .call 0 (.len1 1), .lock 0, .micro 0, .unlock 0, .ret 0]

/-- C160 refuted for `Len`: it returns 2 although the map never has two entries. -/
theorem C160_len_claim_false : ¬ C160_len_claim := by
  intro h
  have hs : (exec (LimitHashMap.obj id 8 2) (init fun _ => LimitHashMap.Seg.new) lenRace).isSome = true := by decide +kernel
  obtain ⟨s, hs⟩ := Option.isSome_iff_exists.mp hs
  have hh : (exec (LimitHashMap.obj id 8 2) (init fun _ => LimitHashMap.Seg.new) lenRace).map St.hist = some s.hist := by rw [hs]; rfl
  have hv : (exec (LimitHashMap.obj id 8 2) (init fun _ => LimitHashMap.Seg.new) lenRace).map St.hist =
      some [.inv 0 (.put 0 5), .res 0 (.val 0 false), .inv 1 (.len1 0), .res 1 (.num 1), .inv 2 (.del 0), .res 2 .unit,
        .inv 3 (.put 1 6), .res 3 (.val 0 false), .inv 4 (.len1 1), .res 4 (.num 1)] := by decide +kernel
  rw [hv] at hh
  injection hh with hh
  obtain ⟨k, s', h1, h2⟩ := h lenRace s 1 4 1 1 hs (by decide +kernel) (by rw [← hh]; simp) (by rw [← hh]; simp) (by rw [← hh]; simp)
    (by rw [← hh]; simp)
  have hall : ∀ k < 33, ((exec (LimitHashMap.obj id 8 2) (init fun _ => LimitHashMap.Seg.new) (lenRace.take k)).map entries) ≠ some 2 := by
    decide +kernel
  by_cases hk : k < 33
  · exact hall k hk (by rw [h1]; exact congrArg some h2)
  · have : lenRace.take k = lenRace.take 32 := by
      rw [List.take_of_length_le (by show lenRace.length ≤ k; simp only [lenRace, List.length_cons, List.length_nil]; omega)]; rfl
    rw [this] at h1
    exact hall 32 (by decide) (by rw [h1]; exact congrArg some h2)

end Gofer.Props.Linear
