import Verif.Proof.ConsistenthashNext
import Mathlib.Order.Nat

/-!
# `Consistenthash`: properties C23–C29, C78, C79

`hash` is any hash function and `P` any linear order unless the theorem mentions `crc`, the CRC64 the
code uses. `s := Spec.Ring.exec r (point hash) os` is the ring after the history `os`.
-/
namespace Gofer.Props.Consistenthash
open Gofer.Consistenthash
open Gofer.Spec.Ring (Op Owner IsSucc CollisionFree added everAdded firsts)
variable {P : Type} [LinearOrder P]

/-- Points used by the code. -/
abbrev ring (hash : List UInt8 → P) (r : Nat) (os : List (Op (BitVec 64))) : P → Option (BitVec 64) :=
  (Spec.Ring.exec r (point hash) os).ring

/-- Current members after the history. -/
abbrev members (hash : List UInt8 → P) (r : Nat) (os : List (Op (BitVec 64))) : List (BitVec 64) :=
  (Spec.Ring.exec r (point hash) os).nodes

/-! ### C24 successor routing -/

/-- C24. After every history, `Get(v)` answers node `n` iff `n` owns the clockwise successor of
`hash(v)`. -/
theorem C24_get_successor (hash : List UInt8 → P) (r : Nat) (os : List (Op (BitVec 64))) (v n : BitVec 64) :
    get hash (exec hash r os) v = .node n ↔ Owner (ring hash r os) (hash (int64ToBytes v)) n :=
  (getPoint_spec (exec_inv hash r os) _).1 n

/-- C24 for `GetStr`. -/
theorem C24_getStr_successor (hash : List UInt8 → P) (r : Nat) (os : List (Op (BitVec 64))) (v : List UInt8) (n : BitVec 64) :
    getStr hash (exec hash r os) v = .node n ↔ Owner (ring hash r os) (hash v) n :=
  (getPoint_spec (exec_inv hash r os) _).1 n

/-- C24. A non-empty ring always answers. -/
theorem C24_getStr_exists (hash : List UInt8 → P) (r : Nat) (os : List (Op (BitVec 64))) (v : List UInt8)
    (h : ∃ p, ring hash r os p ≠ none) : ∃ n, getStr hash (exec hash r os) v = .node n := by
  obtain ⟨n, hn⟩ := owner_exists (exec_inv hash r os) (hash v) h
  exact ⟨n, (C24_getStr_successor hash r os v n).2 hn⟩

/-! ### C23 totality -/

/-- C23, as stated: with at least one replica no panic, and an answer iff there is a member. -/
def C23_claim : Prop := ∀ (r : Nat) (os : List (Op (BitVec 64))) (v : List UInt8), 0 < r →
  getStr crc (exec crc r os) v ≠ .panic ∧
  ((∃ n ∈ members crc r os, getStr crc (exec crc r os) v = .node n) ↔ members crc r os ≠ [])

/-- C23 is false: deleting the last node leaves a non-nil empty slice, and lookups index it. -/
theorem C23_claim_false : ¬ C23_claim := by
  intro h
  refine (h 1 [.add [1], .del 1] [] (by decide)).1 ?_
  decide +kernel

/-- Two nodes that hide each other: replica 0 of one is replica 1 of the other and vice versa. -/
def twin : BitVec 64 := 8025316695516917426#64

/-- C23 is false even while a node is a member: with 2 replicas node `twin` takes over both points of
node 1; deleting `twin` leaves node 1 without points, and lookups panic. -/
theorem C23_member_panic_witness :
    members crc 2 [.add [1], .add [twin], .del twin] = [1] ∧
    nodesOf (exec crc 2 [.add [1], .add [twin], .del twin]) = [1] ∧
    getStr crc (exec crc 2 [.add [1], .add [twin], .del twin]) [] = .panic := by decide +kernel

/-- C23 (what holds): the exact condition for the panic. It happens iff nodes were added before and
no point is owned now. -/
theorem C23_getStr_panic_iff_partial (hash : List UInt8 → P) (r : Nat) (os : List (Op (BitVec 64))) (v : List UInt8) :
    getStr hash (exec hash r os) v = .panic ↔ 0 < r ∧ everAdded os ∧ ∀ p, ring hash r os p = none := by
  rw [getStr, (getPoint_spec (exec_inv hash r os) _).2.1]
  rw [show (exec hash r os).alloc = true ↔ _ from alloc_iff hash r os (inv_new r)]
  simp [new, and_assoc]

/-- C23 (what holds): whatever node is answered is a current member. -/
theorem C23_getStr_member_partial (hash : List UInt8 → P) (r : Nat) (os : List (Op (BitVec 64))) (v : List UInt8) (n : BitVec 64)
    (h : getStr hash (exec hash r os) v = .node n) : n ∈ members hash r os := by
  obtain ⟨p, _, hp⟩ := (C24_getStr_successor hash r os v n).1 h
  exact (exec_inv hash r os).own p n hp

/-- C23 (what holds): with at least one replica, at least one member and no two added nodes sharing a
point, `GetStr` answers a member. -/
theorem C23_getStr_total_partial (hash : List UInt8 → P) (r : Nat) (os : List (Op (BitVec 64))) (v : List UInt8)
    (hr : 0 < r) (hcf : CollisionFree r (point hash) (added os)) (hne : members hash r os ≠ []) :
    ∃ n ∈ members hash r os, getStr hash (exec hash r os) v = .node n := by
  obtain ⟨n, hn⟩ := List.exists_mem_of_ne_nil _ hne
  have hd := (det_exec os hcf (point hash 0 n) n).2 ⟨hn, 0, hr, rfl⟩
  obtain ⟨m, hm⟩ := C24_getStr_exists hash r os v ⟨point hash 0 n, by rw [ring, hd]; simp⟩
  exact ⟨m, C23_getStr_member_partial hash r os v m hm, hm⟩

/-- C23: `Nodes` lists exactly the members, each once. -/
theorem C23_nodes (hash : List UInt8 → P) (r : Nat) (os : List (Op (BitVec 64))) :
    (nodesOf (exec hash r os)).Nodup ∧ ∀ n, n ∈ nodesOf (exec hash r os) ↔ n ∈ members hash r os := by
  refine ⟨(exec hash r os).nodes.nodup, ?_⟩
  intro n
  rw [← (exec_inv hash r os).nodes n, nodesOf, List.mem_map]
  constructor
  · rintro ⟨⟨k, u⟩, h1, rfl⟩
    rw [(AMap.mem_entries_iff _ _ _).1 h1]; rfl
  · intro h
    obtain ⟨u, hu⟩ := Option.isSome_iff_exists.1 h
    exact ⟨(n, u), (AMap.mem_entries_iff _ _ _).2 hu, rfl⟩

/-! ### C25 the node set determines the placement -/

/-- C25, as stated. -/
def C25_claim : Prop := ∀ (r : Nat) (os os' : List (Op (BitVec 64))) (v : List UInt8),
  CollisionFree r (point crc) (added os) → CollisionFree r (point crc) (added os') →
  (∀ n, n ∈ members crc r os ↔ n ∈ members crc r os') →
  getStr crc (exec crc r os) v = getStr crc (exec crc r os') v

/-- C25 is false for the empty node set: a new ring answers "absent", an emptied one panics. -/
theorem C25_claim_false : ¬ C25_claim := by
  intro h
  have h1 := h 1 [] [.add [1], .del 1] [] (by simp [CollisionFree, added])
    (by
      intro n hn n' hn' _ _ _ _ _
      simp only [added, List.append_nil, List.mem_singleton] at hn hn'
      rw [hn, hn'])
    (by
      intro n
      rw [show members crc 1 [] = [] from rfl, show members crc 1 [.add [1], .del 1] = [] by decide +kernel])
  revert h1
  decide +kernel

/-- C25 (what holds): for a non-empty node set. -/
theorem C25_set_determines_partial (hash : List UInt8 → P) (r : Nat) (os os' : List (Op (BitVec 64))) (v : List UInt8)
    (hcf : CollisionFree r (point hash) (added os)) (hcf' : CollisionFree r (point hash) (added os'))
    (hn : ∀ n, n ∈ members hash r os ↔ n ∈ members hash r os') (hne : members hash r os ≠ []) :
    getStr hash (exec hash r os) v = getStr hash (exec hash r os') v := by
  have hne' : members hash r os' ≠ [] := by
    obtain ⟨n, h⟩ := List.exists_mem_of_ne_nil _ hne
    exact List.ne_nil_of_mem ((hn n).1 h)
  rcases Nat.eq_zero_or_pos r with rfl | hr
  · have e : ∀ os, getStr hash (exec hash 0 os) v = .absent := by
      intro os
      rw [getStr, (getPoint_spec (exec_inv hash 0 os) _).2.2]
      by_contra hc
      exact absurd ((exec_inv hash 0 os).alloc0 (by simpa using hc)) (by decide)
    rw [e, e]
  · have hring : ring hash r os = ring hash r os' := by
      funext p
      apply Option.ext
      intro n
      rw [det_exec os hcf p n, det_exec os' hcf' p n, hn n]
    obtain ⟨n, _, h⟩ := C23_getStr_total_partial hash r os v hr hcf hne
    rw [h]
    have h1 := (C24_getStr_successor hash r os v n).1 h
    rw [hring] at h1
    exact ((C24_getStr_successor hash r os' v n).2 h1).symm

/-- C25: adding nodes that are already members changes nothing at all. -/
theorem C25_add_idempotent (hash : List UInt8 → P) (r : Nat) (os : List (Op (BitVec 64))) (ks : List (BitVec 64))
    (h : ∀ k ∈ ks, k ∈ members hash r os) : exec hash r (os ++ [.add ks]) = exec hash r os := by
  have hi := exec_inv hash r os
  have e : ∀ l : List (BitVec 64), (∀ k ∈ l, k ∈ members hash r os) → l.foldl (addKey hash) (exec hash r os) = exec hash r os := by
    intro l
    induction l with
    | nil => intro _; rfl
    | cons k l ih =>
      intro hl
      have : addKey hash (exec hash r os) k = exec hash r os := by
        have := (hi.nodes k).2 (hl k (by simp))
        obtain ⟨u, hu⟩ := Option.isSome_iff_exists.1 this
        simp [addKey, hu]
      rw [List.foldl_cons, this]
      exact ih fun x hx => hl x (List.mem_cons_of_mem _ hx)
  have e2 : exec hash r (os ++ [.add ks]) = add hash (exec hash r os) ks := by
    simp [exec, List.foldl_append, step]
  rw [e2, add, e ks h, sortKeys_of_sorted hi.sorted]

/-! ### C26 disruption by Add -/

/-- C26. After `Add(ks...)` a lookup either is unchanged or goes to one of the added nodes. -/
theorem C26_add_minimal (hash : List UInt8 → P) (r : Nat) (os : List (Op (BitVec 64))) (ks : List (BitVec 64)) (v : List UInt8) :
    getStr hash (exec hash r (os ++ [.add ks])) v = getStr hash (exec hash r os) v ∨
    ∃ n ∈ ks, getStr hash (exec hash r (os ++ [.add ks])) v = .node n := by
  have e : exec hash r (os ++ [.add ks]) = step hash (exec hash r os) (.add ks) := by
    simp [exec, List.foldl_append]
  rw [e]
  exact add_disruption hash (exec_inv hash r os) ks (step_spec hash (exec_inv hash r os) _) (hash v)

/-- C26. Only nodes that were not members attract values. -/
theorem C26_add_minimal_new (hash : List UInt8 → P) (r : Nat) (os : List (Op (BitVec 64))) (n : BitVec 64) (v : List UInt8)
    (h : getStr hash (exec hash r (os ++ [.add [n]])) v ≠ getStr hash (exec hash r os) v) :
    n ∉ members hash r os ∧ getStr hash (exec hash r (os ++ [.add [n]])) v = .node n := by
  constructor
  · intro hm
    exact h (by rw [C25_add_idempotent hash r os [n] (by simpa using hm)])
  · rcases C26_add_minimal hash r os [n] v with h1 | ⟨m, hm, h1⟩
    · exact absurd h1 h
    · rw [List.mem_singleton.1 hm] at h1; exact h1

/-! ### C27 disruption by Del -/

/-- C27. `Del(n)` changes only lookups that went to `n`. -/
theorem C27_del_minimal (hash : List UInt8 → P) (r : Nat) (os : List (Op (BitVec 64))) (n : BitVec 64) (v : List UInt8)
    (h : getStr hash (exec hash r os) v ≠ .node n) :
    getStr hash (exec hash r (os ++ [.del n])) v = getStr hash (exec hash r os) v := by
  have e : exec hash r (os ++ [.del n]) = step hash (exec hash r os) (.del n) := by
    simp [exec, List.foldl_append]
  rw [e]
  exact del_disruption hash (exec_inv hash r os) n (step_spec hash (exec_inv hash r os) _) (hash v) h

/-- C27: after `Del(n)` nothing goes to `n`. -/
theorem C27_del_gone (hash : List UInt8 → P) (r : Nat) (os : List (Op (BitVec 64))) (n : BitVec 64) (v : List UInt8) :
    getStr hash (exec hash r (os ++ [.del n])) v ≠ .node n := by
  intro h
  have := C23_getStr_member_partial hash r _ v n h
  simp [members, Spec.Ring.exec, List.foldl_append, Spec.Ring.step, Spec.Ring.del] at this

/-- C27, second half, as stated: adding and then deleting a new node restores every lookup. -/
def C27_restore_claim : Prop := ∀ (r : Nat) (os : List (Op (BitVec 64))) (n : BitVec 64) (v : List UInt8),
  n ∉ members crc r os →
  getStr crc (exec crc r (os ++ [.add [n], .del n])) v = getStr crc (exec crc r os) v

/-- It is false, even on a ring with other members: the new node can take over a point of a member,
and deleting it frees the point. -/
theorem C27_restore_claim_false : ¬ C27_restore_claim := by
  intro h
  have := h 2 [.add [1]] twin [] (by decide +kernel)
  revert this
  decide +kernel

/-- C27 (what holds): if the points of the new node are free and some node was added before. -/
theorem C27_restore_partial (hash : List UInt8 → P) (r : Nat) (os : List (Op (BitVec 64))) (n : BitVec 64) (v : List UInt8)
    (hn : n ∉ members hash r os) (hfree : ∀ i < r, ring hash r os (point hash i n) = none) (hev : everAdded os) :
    getStr hash (exec hash r (os ++ [.add [n], .del n])) v = getStr hash (exec hash r os) v := by
  have hi := exec_inv hash r os
  have hi' := exec_inv hash r (os ++ [.add [n], .del n])
  have hring : ring hash r (os ++ [.add [n], .del n]) = ring hash r os := by
    have e : Spec.Ring.exec r (point hash) (os ++ [.add [n], .del n]) =
        Spec.Ring.del (Spec.Ring.add1 r (point hash) (Spec.Ring.exec r (point hash) os) n) n := by
      simp [Spec.Ring.exec, List.foldl_append, Spec.Ring.step]
    funext p
    rw [ring, e]
    simp only [Spec.Ring.del, Spec.Ring.add1, hn, if_false]
    by_cases hp : p ∈ (List.range r).map (fun i => point hash i n)
    · rw [if_pos hp, if_pos rfl]
      obtain ⟨i, hi, rfl⟩ := List.mem_map.1 hp
      exact (hfree i (List.mem_range.1 hi)).symm
    · rw [if_neg hp, if_neg]
      intro hc
      exact hn (hi.own p n hc)
  have hal : (exec hash r (os ++ [.add [n], .del n])).alloc = (exec hash r os).alloc := by
    have h1 : ∀ os', everAdded os' → ((exec hash r os').alloc = true ↔ 0 < r) := by
      intro os' he
      rw [show (exec hash r os').alloc = true ↔ _ from alloc_iff hash r os' (inv_new r)]
      simp [new, he]
    have h2 : everAdded (os ++ [.add [n], .del n]) := by
      have : ∀ l : List (Op (BitVec 64)), added (l ++ [.add [n], .del n]) ≠ [] := by
        intro l
        induction l with
        | nil => simp [added]
        | cons o l ih =>
          cases o with
          | add ks => simp [added, ih]
          | del k => simpa [added] using ih
      exact this os
    rw [Bool.eq_iff_iff, h1 _ h2, h1 _ hev]
  exact getPoint_congr hi' hi hring hal _

/-! ### C28 backups -/

/-- C28. With `step > 0`: let `p` be the successor of `hash(v)`, owned by `n1`, and let `l` be the
owned points above `p` in increasing order. `GetNextNodeStr(v, step)` returns the first `step` distinct
owners of `l` other than `n1`, in order of first appearance. -/
theorem C28_getNextNode (hash : List UInt8 → P) (r : Nat) (os : List (Op (BitVec 64))) (v : List UInt8) (step : Nat) (hpos : 0 < step)
    (p : P) (n1 : BitVec 64) (hp : IsSucc (ring hash r os) (hash v) p) (hn : ring hash r os p = some n1)
    (l : List P) (hl : l.Pairwise (· < ·)) (hmem : ∀ q, q ∈ l ↔ ring hash r os q ≠ none ∧ p < q) :
    getNextNode hash (exec hash r os) v step = some ((firsts [n1] (l.filterMap (ring hash r os))).take step, true) :=
  getNextNode_spec hash (exec_inv hash r os) v step hpos p n1 hp hn l hl hmem

/-- C28. At most `step` nodes, pairwise distinct, all members, none of them the primary. -/
theorem C28_getNextNode_distinct (hash : List UInt8 → P) (r : Nat) (os : List (Op (BitVec 64))) (v : List UInt8) (step : Nat)
    (hpos : 0 < step) (n1 : BitVec 64) (hn : getStr hash (exec hash r os) v = .node n1) :
    ∃ ns, getNextNode hash (exec hash r os) v step = some (ns, true) ∧
      ns.length ≤ step ∧ ns.Nodup ∧ n1 ∉ ns ∧ ∀ n ∈ ns, n ∈ members hash r os := by
  have hi := exec_inv hash r os
  obtain ⟨p, h1, h2⟩ := (C24_getStr_successor hash r os v n1).1 hn
  obtain ⟨l, hl, hmem⟩ := sorted_points hi p
  refine ⟨_, C28_getNextNode hash r os v step hpos p n1 h1 h2 l hl hmem, ?_, ?_, ?_, ?_⟩
  · rw [List.length_take]; omega
  · exact (nodup_firsts _ _).sublist (List.take_sublist _ _)
  · intro hc
    have := (mem_firsts.1 ((List.take_sublist _ _).mem hc)).2
    simp at this
  · intro n hm
    have := (mem_firsts.1 ((List.take_sublist _ _).mem hm)).1
    obtain ⟨q, _, hq⟩ := List.mem_filterMap.1 this
    exact hi.own q n hq

/-! ### C29 injectivity of CRC64 on ids -/

/-- C29. For a fixed replica index different node ids have different ring points. -/
theorem C29_point_injective (i : Nat) (a b : BitVec 64) (h : point crc i a = point crc i b) : a = b := by
  have h1 := crc_inj h
  have h2 := Crc64.crc64_window (int64ToBytes (BitVec.ofNat 64 i)) [] (int64ToBytes a) (int64ToBytes b)
    (by rw [int64ToBytes_length, int64ToBytes_length]) (by rw [int64ToBytes_length])
    (by simpa using h1)
  exact int64ToBytes_inj h2

/-- C29. Different int64 values have different lookup points. -/
theorem C29_value_injective (a b : BitVec 64) (h : crc (int64ToBytes a) = crc (int64ToBytes b)) : a = b := by
  have h2 := Crc64.crc64_window [] [] (int64ToBytes a) (int64ToBytes b)
    (by rw [int64ToBytes_length, int64ToBytes_length]) (by rw [int64ToBytes_length])
    (by simpa using crc_inj h)
  exact int64ToBytes_inj h2

/-- C29 in use: with one replica, nodes never collide, so any two histories with the same non-empty
final node set place every value identically. -/
theorem C29_one_replica (os os' : List (Op (BitVec 64))) (v : List UInt8)
    (hn : ∀ n, n ∈ members crc 1 os ↔ n ∈ members crc 1 os') (hne : members crc 1 os ≠ []) :
    getStr crc (exec crc 1 os) v = getStr crc (exec crc 1 os') v := by
  have hcf : ∀ l, CollisionFree 1 (point crc) l := by
    intro l n _ n' _ i hi j hj h
    obtain rfl : i = j := by omega
    exact C29_point_injective i n n' h
  exact C25_set_determines_partial crc 1 os os' v (hcf _) (hcf _) hn hne

/-! ### C78, C79 collisions between different replica indices -/

/-- C78, as stated: ring points of different nodes never coincide. -/
def C78_claim : Prop := ∀ (i j : Nat) (a b : BitVec 64), point crc i a = point crc j b → a = b

/-- C78 is false for the CRC64 the code uses. -/
theorem C78_claim_false : ¬ C78_claim := by
  intro h
  have := h 0 1 1 twin (by decide +kernel)
  revert this
  decide

/-- C78: as a consequence the order of `Add` calls matters: with 2 replicas node 1 and `twin` have the
same two points, and the later one receives everything. -/
theorem C78_order_matters_witness :
    getStr crc (exec crc 2 [.add [1], .add [twin]]) [] = .node twin ∧
    getStr crc (exec crc 2 [.add [twin], .add [1]]) [] = .node 1 ∧
    ∀ n, n ∈ members crc 2 [.add [1], .add [twin]] ↔ n ∈ members crc 2 [.add [twin], .add [1]] := by
  refine ⟨by decide +kernel, by decide +kernel, ?_⟩
  intro n
  rw [show members crc 2 [.add [1], .add [twin]] = [twin, 1] by decide +kernel,
    show members crc 2 [.add [twin], .add [1]] = [1, twin] by decide +kernel]
  simp only [List.mem_cons, List.not_mem_nil, or_false]
  exact Or.comm

/-- C78 (what holds) and C79: for ids in `[0, 2^48)` and up to 65536 replicas, no two (replica, node)
pairs share a ring point. -/
theorem C79_small_ids_injective (i j : Nat) (a b : BitVec 64) (hi : i < 65536) (hj : j < 65536)
    (ha : a.toNat < 2 ^ 48) (hb : b.toNat < 2 ^ 48) (h : point crc i a = point crc j b) : i = j ∧ a = b :=
  point_inj hi hj ha hb h

theorem C79_collisionFree (r : Nat) (hr : r ≤ 65536) (ns : List (BitVec 64)) (hns : ∀ n ∈ ns, n.toNat < 2 ^ 48) :
    CollisionFree r (point crc) ns := by
  intro n hn n' hn' i hi j hj h
  exact (C79_small_ids_injective i j n n' (by omega) (by omega) (hns n hn) (hns n' hn') h).2

/-- C79: for such rings any two histories with the same non-empty node set place every value
identically, and every lookup answers a member. -/
theorem C79_placement (r : Nat) (hr : r ≤ 65536) (h0 : 0 < r) (os os' : List (Op (BitVec 64))) (v : List UInt8)
    (h1 : ∀ n ∈ added os, n.toNat < 2 ^ 48) (h2 : ∀ n ∈ added os', n.toNat < 2 ^ 48)
    (hn : ∀ n, n ∈ members crc r os ↔ n ∈ members crc r os') (hne : members crc r os ≠ []) :
    getStr crc (exec crc r os) v = getStr crc (exec crc r os') v ∧
    ∃ n ∈ members crc r os, getStr crc (exec crc r os) v = .node n :=
  ⟨C25_set_determines_partial crc r os os' v (C79_collisionFree r hr _ h1) (C79_collisionFree r hr _ h2) hn hne,
   C23_getStr_total_partial crc r os v h0 (C79_collisionFree r hr _ h1) hne⟩

/-! ### Concrete cases -/

/-- A toy hash: sum of the bytes, times 10, mod 64. -/
def toy (bs : List UInt8) : Nat := (bs.map UInt8.toNat).sum * 10 % 64

example : (exec toy 2 [.add [3, 1], .add [2]]).keys = [10, 20, 20, 30, 30, 40] := by decide +kernel
example : getStr toy (exec toy 2 [.add [3, 1], .add [2]]) [2] = .node 2 := by decide +kernel
example : getStr toy (exec toy 2 [.add [3, 1], .add [2]]) [5] = .node 1 := by decide +kernel
example : get toy (exec toy 2 [.add [3, 1], .add [2], .del 2]) 2 = .node 3 := by decide +kernel
example : getNextNode toy (exec toy 2 [.add [3, 1], .add [2]]) [1] 5 = some ([2, 3], true) := by decide +kernel
example : getNextNode toy (exec toy 2 [.add [3, 1], .add [2]]) [1] 1 = some ([2], true) := by decide +kernel
example : get crc (exec crc 3 [.add [1, 2, 3]]) 7 = .node 1 := by decide +kernel
example : members crc 3 [.add [1, 2, 3], .del 2] ≠ [] ∧ ∀ n ∈ added [Op.add [1#64, 2, 3], .del 2], n.toNat < 2 ^ 48 := by
  refine ⟨by decide +kernel, ?_⟩
  intro n hn
  simp only [added, List.append_nil, List.mem_cons, List.not_mem_nil, or_false] at hn
  rcases hn with rfl | rfl | rfl <;> simp
example : ring crc 2 [.add [1, 5]] (point crc 0 9) = none ∧ ring crc 2 [.add [1, 5]] (point crc 1 9) = none ∧
    everAdded [Op.add [1#64, 5]] := ⟨by decide +kernel, by decide +kernel, by simp [everAdded, added]⟩

end Gofer.Props.Consistenthash
