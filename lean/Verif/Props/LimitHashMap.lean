import Verif.Proof.LimitHashMap

/-! # `LimitHashMap`: properties C19 - C22, C77 -/
namespace Gofer.Props.LimitHashMap
open Gofer.LimitHashMap Gofer.Spec.Assoc
open Gofer.Spec.LimitHashMap (Op Res)
variable {K V : Type} [DecidableEq K] [GoValue V]

/-! ## C19 -/

/-- C19, the full claim (for `uint64` keys). -/
def C19_claim : Prop := ∀ (cap segs : Nat) (os : List (Op (BitVec 64) Nat)), 0 < segs →
  len (final (new (hashUint 64) cap segs) os) ≤ cap

/-- C19 is false: with capacity 1 and the default 64 segments, 64 entries fit. -/
theorem C19_claim_false : ¬ C19_claim := by
  intro h
  have h1 := h 1 64 ((List.range 64).map fun i => .put (BitVec.ofNat 64 i) i) (by decide)
  have h2 : len (final (new (hashUint 64) ((1 : Nat) : Int) 64 : LHM (BitVec 64) Nat)
      ((List.range 64).map fun i => .put (BitVec.ofNat 64 i) i)) = 64 := by decide +kernel
  omega

/-- C19. The bound that holds for every capacity, segment count, hash and history; each segment always
keeps at least one entry. -/
theorem C19_general_bound (h : K → UInt64) (cap : Int) (segs : Nat) (os : List (Op K V)) :
    (len (final (new h cap segs) os) : Int) ≤ segs * max (cap.tdiv segs) 1 := by
  obtain ⟨_, s, hi, h1, h2, _⟩ := run_spec (inv_new h cap segs) os
  have := len_le hi
  rw [h1, h2] at this
  exact this

/-- C19. If the capacity is at least the number of segments the claim holds. Missing: smaller capacities,
where it is false. -/
theorem C19_capacity_partial (h : K → UInt64) (cap segs : Nat) (hs : 0 < segs) (hc : segs ≤ cap) (os : List (Op K V)) :
    len (final (new h cap segs) os) ≤ cap := by
  have h1 := C19_general_bound (V := V) h cap segs os
  have h2 : (cap : Int).tdiv segs = ((cap / segs : Nat) : Int) := by
    rw [Int.tdiv_eq_ediv_of_nonneg (by omega)]; rfl
  have h3 : 1 ≤ cap / segs := (Nat.one_le_div_iff hs).2 hc
  rw [h2, max_eq_left (by exact_mod_cast h3)] at h1
  have h4 : segs * (cap / segs) ≤ cap := Nat.mul_div_le cap segs
  have h5 : (segs : Int) * ((cap / segs : Nat) : Int) = ((segs * (cap / segs) : Nat) : Int) := by push_cast; rfl
  rw [h5] at h1
  have : len (final (new h cap segs) os) ≤ segs * (cap / segs) := by exact_mod_cast h1
  omega

example : 0 < 4 ∧ 4 ≤ 10 := by decide
example : len (final (new (hashUint 64) 2 1 : LHM (BitVec 64) Nat) [.put 1 1, .put 2 2, .put 3 3]) = 2 := by decide +kernel

/-! ## C20 -/

/-- C20. For an injective hash every history returns what independent FIFO-bounded segments of capacity
`cap / segs` return, the segment of a key being its hash modulo the number of segments. -/
theorem C20_limitHashMap_refines (h : K → UInt64) (hi : Function.Injective h) (cap : Int) (segs : Nat) (os : List (Op K V)) :
    run (new h cap segs) os = Spec.LimitHashMap.run GoValue.zero GoValue.isNil segs (cap.tdiv segs)
      (fun k => (h k).toNat % segs) (fun _ => []) os := by
  rw [(run_spec (inv_new h cap segs) os).1]
  have := spec_ren h hi (GoValue.zero : V) GoValue.isNil segs (cap.tdiv segs) (fun x : UInt64 => x.toNat % segs) (fun _ => []) os
  exact this

/-- C20. For every hash, the same holds with keys replaced by their hashes. -/
theorem C20_refines_on_hashes (h : K → UInt64) (cap : Int) (segs : Nat) (os : List (Op K V)) :
    run (new h cap segs) os = Spec.LimitHashMap.run GoValue.zero GoValue.isNil segs (cap.tdiv segs)
      (fun x : UInt64 => x.toNat % segs) (fun _ => []) (os.map (hashOp h)) :=
  (run_spec (inv_new h cap segs) os).1

/-- C20. The hashes of all unsigned integer key types are injective. -/
theorem C20_hashUint_injective (w : Nat) (hw : w ≤ 64) : Function.Injective (hashUint w) := by
  intro a b h
  have h : a.setWidth 64 = b.setWidth 64 := congrArg UInt64.toBitVec h
  apply BitVec.eq_of_toNat_eq
  have := congrArg BitVec.toNat h
  rw [BitVec.toNat_setWidth, BitVec.toNat_setWidth] at this
  have ha : a.toNat < 2 ^ 64 := lt_of_lt_of_le a.isLt (Nat.pow_le_pow_right (by decide) hw)
  have hb : b.toNat < 2 ^ 64 := lt_of_lt_of_le b.isLt (Nat.pow_le_pow_right (by decide) hw)
  rwa [Nat.mod_eq_of_lt ha, Nat.mod_eq_of_lt hb] at this

/-- C20. The hashes of all signed integer key types are injective. -/
theorem C20_hashInt_injective (w : Nat) (hw : w ≤ 64) : Function.Injective (hashInt w) := by
  intro a b h
  have h : a.signExtend 64 = b.signExtend 64 := congrArg UInt64.toBitVec h
  apply BitVec.eq_of_toInt_eq
  have := congrArg BitVec.toInt h
  rwa [BitVec.toInt_signExtend_of_le hw, BitVec.toInt_signExtend_of_le hw] at this

/-- C20. Updates keep an entry's age: with room for two, updating 1 does not save it from eviction. -/
example : run (new (hashInt 32) 2 1 : LHM (BitVec 32) Nat)
    [.put (-1) 10, .put 2 20, .put (-1) 11, .put 3 30, .get (-1), .get 2, .contains 3, .len, .clear, .len] =
    [.val 0 false, .val 0 false, .val 10 true, .val 0 false, .val 0 false, .val 20 true, .ok true, .num 2,
     .unit, .num 0] := by decide +kernel

/-! ## C21 -/

/-- C21, the full claim for a hash function. -/
def C21_claim (h : K → UInt64) : Prop := ∀ (cap : Int) (segs : Nat) (os : List (Op K Nat)) (k : K) (v : Nat),
  0 < segs → get (final (new h cap segs) os) k = some v → Op.put k v ∈ os

/-- Two different strings with the same FNV-1a hash: "8yn0iYCKYHlIj4-BwPqk" and "GReLUrM4wMqfg9yzV3KQ". -/
def collA : List UInt8 := [0x38, 0x79, 0x6e, 0x30, 0x69, 0x59, 0x43, 0x4b, 0x59, 0x48, 0x6c, 0x49, 0x6a, 0x34, 0x2d, 0x42, 0x77, 0x50, 0x71, 0x6b]
def collB : List UInt8 := [0x47, 0x52, 0x65, 0x4c, 0x55, 0x72, 0x4d, 0x34, 0x77, 0x4d, 0x71, 0x66, 0x67, 0x39, 0x79, 0x7a, 0x56, 0x33, 0x4b, 0x51]

theorem collision : collA ≠ collB ∧ hashString collA = hashString collB := by decide +kernel

/-- C21 is false for string keys: the value put under one string is returned for another. -/
theorem C21_string_claim_false : ¬ C21_claim hashString := by
  intro h
  have h1 := h 64 1 [.put collA 7] collB 7 (by decide) (by decide +kernel)
  simp only [List.mem_singleton, Op.put.injEq] at h1
  exact collision.1 h1.1.symm

/-- C21. For every key type: a returned value was put under a key with the same hash. Missing: the same
key (false for colliding hashes). -/
theorem C21_same_hash_partial (h : K → UInt64) (cap : Int) (segs : Nat) (os : List (Op K V)) (k : K) (v : V)
    (hg : get (final (new h cap segs) os) k = some v) : ∃ k', Op.put k' v ∈ os ∧ h k' = h k := by
  obtain ⟨s, hi, hp, _, _, hh⟩ := prov_final (new h cap segs : LHM K V) (fun _ => []) [] os (inv_new h cap segs)
    (fun _ _ hm => by simp at hm)
  rw [get_eq hi, hh] at hg
  cases hf : find (h k) (s (segIdx (final (new h cap segs : LHM K V) os) k)) with
  | none =>
    rw [show (new h cap segs : LHM K V).hashFunc = h from rfl, hf] at hg; simp at hg
  | some w =>
    rw [show (new h cap segs : LHM K V).hashFunc = h from rfl, hf] at hg
    have hw : w = v := by
      simp only [Option.map_some, Option.join_some, toAny] at hg
      split at hg
      · simp at hg
      · exact Option.some.inj hg
    subst hw
    obtain ⟨k', h1, h2⟩ := hp _ _ (mem_of_find hf)
    exact ⟨k', by simpa using h1, h2⟩

/-- C21. For every key type with an injective hash (all integer types) the full claim holds. -/
theorem C21_injective (h : K → UInt64) (hi : Function.Injective h) (cap : Int) (segs : Nat) (os : List (Op K V))
    (k : K) (v : V) (hg : get (final (new h cap segs) os) k = some v) : Op.put k v ∈ os := by
  obtain ⟨k', h1, h2⟩ := C21_same_hash_partial h cap segs os k v hg
  rw [← hi h2]; exact h1

example : get (final (new (hashInt 64) 4 2 : LHM (BitVec 64) Nat) [.put 5 50, .put 6 60]) 5 = some 50 := by decide +kernel

/-! ## C22 -/

/-- C22 is false: `Get` of a present key with a nil value reports absent, `Contains` says present, and
putting it again panics. -/
theorem C22_refuted : run (new (hashInt 64) 4 1 : LHM (BitVec 64) (Option Nat))
    [.put 1 none, .contains 1, .get 1, .put 1 (some 5)] =
    [.val none false, .ok true, .val none false, .panic] := by decide +kernel

/-- C22. Once a nil value is stored under a key, every later `Put` of that key panics, until the entry
is deleted or evicted: in every reachable state a key that `Contains` reports and `Get` does not makes
`Put` panic and leaves the map unchanged. -/
theorem C22_put_over_nil_panics (h : K → UInt64) (cap : Int) (segs : Nat) (os : List (Op K V)) (k : K) (v : V)
    (hc : contains (final (new h cap segs) os) k = true) (hg : get (final (new h cap segs) os) k = none) :
    put (final (new h cap segs) os) k v = (final (new h cap segs) os, .panic) := by
  obtain ⟨_, s, hi, _⟩ := run_spec (inv_new h cap segs : Inv (new h cap segs : LHM K V) _) os
  generalize final (new h cap segs) os = c at *
  have hsi := hi.seg (segIdx c k)
  rw [contains, seg_load hsi] at hc
  rw [LimitHashMap.get, seg_get hsi] at hg
  obtain ⟨w, hw⟩ := Option.isSome_iff_exists.1 hc
  rw [hw] at hg
  cases w with
  | some w => simp at hg
  | none =>
    unfold put
    rw [seg_put_nil hsi _ _ hw]

example : contains (final (new (hashInt 64) 4 1 : LHM (BitVec 64) (Option Nat)) [.put 1 none]) 1 = true ∧
    get (final (new (hashInt 64) 4 1 : LHM (BitVec 64) (Option Nat)) [.put 1 none]) 1 = none := by decide +kernel

/-- C22. What holds: right after a `Put` that returned, `Contains` reports the key, and `Get` reports it
with its value if the value is not nil. Missing: nil values. -/
theorem C22_put_then_get_partial (h : K → UInt64) (cap : Int) (segs : Nat) (os : List (Op K V)) (k : K) (v : V)
    (hp : (put (final (new h cap segs) os) k v).2 ≠ .panic) :
    contains (put (final (new h cap segs) os) k v).1 k = true ∧
    (GoValue.isNil v = false → get (put (final (new h cap segs) os) k v).1 k = some v) := by
  obtain ⟨_, s, hi, _⟩ := run_spec (inv_new h cap segs : Inv (new h cap segs : LHM K V) _) os
  generalize final (new h cap segs) os = c at *
  have hsi := hi.seg (segIdx c k)
  have key : ∃ s' es, (put c k v).1 = setSeg c (segIdx c k) s' ∧ SInv c.capacity s' es ∧ find (c.hashFunc k) es = some (toAny v) := by
    cases hf : find (c.hashFunc k) ((s (segIdx c k)).map (ren id toAny)) with
    | none =>
      obtain ⟨s', e1, e2⟩ := seg_put_new hsi (c.hashFunc k) (toAny v) hf
      refine ⟨s', _, ?_, e2, ?_⟩
      · unfold put; rw [e1]
      · simp [Spec.LimitHashMap.addNew, find]
    | some w =>
      cases w with
      | none =>
        exfalso; apply hp
        unfold put; rw [seg_put_nil hsi _ _ hf]
      | some w =>
        obtain ⟨s', e1, e2⟩ := seg_put_old hsi (c.hashFunc k) (toAny v) hf
        refine ⟨s', _, ?_, e2, ?_⟩
        · unfold put; rw [e1]
        · obtain ⟨ids, hl⟩ := hsi.lnk
          have hm := mem_of_find hf
          obtain ⟨exs, eys, hs⟩ := List.append_of_mem hm
          have hn := hl.nodup
          rw [hs] at hn ⊢
          rw [setValue_split hn]
          have hn' : ((exs ++ (c.hashFunc k, toAny v) :: eys).map Prod.fst).Nodup := by
            rw [List.map_append, List.map_cons] at hn ⊢; exact hn
          exact (find_split hn').1
  obtain ⟨s', es, h1, h2, h3⟩ := key
  have hidx : segIdx (setSeg c (segIdx c k) s') k = segIdx c k := rfl
  have hsg : (setSeg c (segIdx c k) s').segments (segIdx c k) = s' := by simp [setSeg]
  have hhf : (setSeg c (segIdx c k) s').hashFunc = c.hashFunc := rfl
  rw [h1]
  constructor
  · rw [contains, hidx, hsg, hhf, seg_load h2, h3]; rfl
  · intro hnil
    rw [LimitHashMap.get, hidx, hsg, hhf, seg_get h2, h3]
    simp [toAny, hnil]

example : (put (final (new (hashInt 64) 4 2 : LHM (BitVec 64) Nat) [.put 5 50]) 5 7).2 ≠ .panic := by decide +kernel

/-! ## C77 -/

/-- Go's `==` on float64 values given by their bits (IEEE 754): NaN is not equal to anything; the two
zeros are equal. -/
def floatEq (a b : BitVec 64) : Prop :=
  let isNaN (x : BitVec 64) := x &&& 0x7ff0000000000000#64 = 0x7ff0000000000000#64 ∧ x &&& 0x000fffffffffffff#64 ≠ 0
  let isZero (x : BitVec 64) := x &&& 0x7fffffffffffffff#64 = 0
  ¬ isNaN a ∧ ¬ isNaN b ∧ (a = b ∨ (isZero a ∧ isZero b))

instance (a b : BitVec 64) : Decidable (floatEq a b) := by unfold floatEq; infer_instance

/-- C77 is false: `0.0 == -0.0`, but a value put under `0.0` is not found under `-0.0`. -/
theorem C77_float_zero_refuted : ∃ a b : BitVec 64, floatEq a b ∧
    run (new hashFloat64 64 1 : LHM (BitVec 64) Nat) [.put a 1, .get b, .put b 2, .len] =
      [.val 0 false, .val 0 false, .val 0 false, .num 2] :=
  ⟨0, 0x8000000000000000#64, by decide +kernel⟩

/-- C77. The part that holds: apart from the two zeros, `Get` with an equal float key is `Get` with the
same key. Missing: the zeros. -/
theorem C77_float_partial (c : LHM (BitVec 64) V) (a b : BitVec 64) (h : floatEq a b)
    (hz : ¬ (a &&& 0x7fffffffffffffff#64 = 0)) : get c a = get c b := by
  obtain ⟨_, _, rfl | ⟨hz', _⟩⟩ := h
  · rfl
  · exact absurd hz' hz

example : floatEq 0x3ff0000000000000#64 0x3ff0000000000000#64 ∧ ¬ (0x3ff0000000000000#64 &&& 0x7fffffffffffffff#64 = 0) := by decide +kernel

end Gofer.Props.LimitHashMap
