import Verif.Model.LimitHashMap
import Verif.Proof.Linked
import Verif.Proof.Assoc
import Mathlib.Algebra.BigOperators.Group.List.Basic
import Mathlib.Algebra.Order.BigOperators.Group.List

namespace Gofer.LimitHashMap
open GoList
open Gofer.Spec.LimitHashMap (Op Res setValue addNew)
open Gofer.Spec.Assoc

section Seg
variable {V : Type}

/-- Refinement relation of one segment. -/
structure SInv (cap : Int) (s : Seg V) (es : List (UInt64 × Option V)) : Prop where
  lnk : ∃ ids, Lnk Prod.fst s.cache s.order ids es
  bound : (es.length : Int) ≤ max cap 1

theorem setValue_split {K A : Type} [DecidableEq K] {k : K} {a b : A} {exs eys : List (K × A)}
    (hn : ((exs ++ (k, a) :: eys).map Prod.fst).Nodup) :
    setValue k b (exs ++ (k, a) :: eys) = exs ++ (k, b) :: eys := by
  obtain ⟨h1, h2⟩ := Lnk.keys_split hn
  rw [List.map_append, List.mem_append, not_or] at h2
  have e : ∀ zs : List (K × A), k ∉ zs.map Prod.fst → zs.map (fun p => if p.1 = k then (p.1, b) else p) = zs := by
    intro zs hz
    conv_rhs => rw [← List.map_id zs]
    apply List.map_congr_left
    intro p hp
    rw [if_neg]; · rfl
    intro hk; exact hz (List.mem_map.2 ⟨p, hp, hk⟩)
  rw [setValue, List.map_append, List.map_cons, e exs h2.1, e eys h2.2]
  simp

theorem sinv_new (cap : Int) : SInv cap (Seg.new : Seg V) [] :=
  ⟨⟨[], Lnk.new⟩, by simp only [List.length_nil]; push_cast; omega⟩

theorem seg_load {cap : Int} {s : Seg V} {es : List (UInt64 × Option V)} (hi : SInv cap s es) (h : UInt64) :
    (s.cache.load h).isSome = (find h es).isSome := by
  obtain ⟨ids, hl⟩ := hi.lnk
  rw [Bool.eq_iff_iff, hl.isSome_iff, ← Option.ne_none_iff_isSome, ne_eq, find_none, not_not]

theorem seg_get {cap : Int} {s : Seg V} {es : List (UInt64 × Option V)} (hi : SInv cap s es) (h : UInt64) :
    s.get h = (find h es).join := by
  obtain ⟨ids, hl⟩ := hi.lnk
  unfold Seg.get
  cases hk : s.cache.load h with
  | none => rw [find_none.2 (hl.load_none.1 hk)]; rfl
  | some i =>
    obtain ⟨xs, ys, exs, a, eys, rfl, rfl, h3, h4, h5, h6⟩ := hl.load_some hk
    obtain ⟨k', v'⟩ := a
    simp only at h4; subst h4
    rw [(find_split hl.nodup).1]
    simp [h3]

theorem seg_del {cap : Int} {s : Seg V} {es : List (UInt64 × Option V)} (hi : SInv cap s es) (h : UInt64) :
    SInv cap (s.del h) (without h es) := by
  obtain ⟨ids, hl⟩ := hi.lnk
  have hb := hi.bound
  unfold Seg.del
  cases hk : s.cache.load h with
  | none => rw [without_of_not_mem (hl.load_none.1 hk)]; exact hi
  | some i =>
    obtain ⟨xs, ys, exs, a, eys, rfl, rfl, h3, h4, h5, h6⟩ := hl.load_some hk
    obtain ⟨k', v'⟩ := a
    simp only at h4; subst h4
    rw [(find_split hl.nodup).2]
    refine ⟨⟨_, hl.remove h3 h5 h6⟩, ?_⟩
    simp only [List.length_append, List.length_cons] at hb ⊢; push_cast at hb ⊢; omega

theorem seg_clear {cap : Int} {s : Seg V} {es : List (UInt64 × Option V)} (hi : SInv cap s es) :
    SInv cap s.clear [] := by
  obtain ⟨ids, hl⟩ := hi.lnk
  exact ⟨⟨_, hl.init⟩, by simp only [List.length_nil]; push_cast; omega⟩

theorem seg_put_old {cap : Int} {s : Seg V} {es : List (UInt64 × Option V)} (hi : SInv cap s es) (h : UInt64)
    (value : Option V) {prev : V} (hf : find h es = some (some prev)) :
    ∃ s', s.put cap h value = some (s', some prev) ∧ SInv cap s' (setValue h value es) := by
  obtain ⟨ids, hl⟩ := hi.lnk
  have hb := hi.bound
  cases hk : s.cache.load h with
  | none => rw [find_none.2 (hl.load_none.1 hk)] at hf; simp at hf
  | some i =>
    obtain ⟨xs, ys, exs, a, eys, rfl, rfl, h3, h4, h5, h6⟩ := hl.load_some hk
    obtain ⟨k', v'⟩ := a
    simp only at h4; subst h4
    rw [(find_split hl.nodup).1] at hf
    obtain rfl := Option.some.inj hf
    refine ⟨{ s with order := s.order.setVal i (k', value) }, by simp only [Seg.put, hk, h3], ?_⟩
    rw [setValue_split hl.nodup]
    refine ⟨⟨_, (hl.setVal (b := (k', value)) h3 rfl h5 h6).1⟩, ?_⟩
    simp only [List.length_append, List.length_cons] at hb ⊢; omega

theorem seg_put_nil {cap : Int} {s : Seg V} {es : List (UInt64 × Option V)} (hi : SInv cap s es) (h : UInt64)
    (value : Option V) (hf : find h es = some none) : s.put cap h value = none := by
  obtain ⟨ids, hl⟩ := hi.lnk
  cases hk : s.cache.load h with
  | none => rw [find_none.2 (hl.load_none.1 hk)] at hf; simp at hf
  | some i =>
    obtain ⟨xs, ys, exs, a, eys, rfl, rfl, h3, h4, h5, h6⟩ := hl.load_some hk
    obtain ⟨k', v'⟩ := a
    simp only at h4; subst h4
    rw [(find_split hl.nodup).1] at hf
    obtain rfl := Option.some.inj hf
    simp only [Seg.put, hk, h3]

theorem seg_put_new {cap : Int} {s : Seg V} {es : List (UInt64 × Option V)} (hi : SInv cap s es) (h : UInt64)
    (value : Option V) (hf : find h es = none) :
    ∃ s', s.put cap h value = some (s', none) ∧ SInv cap s' (addNew cap h value es) := by
  obtain ⟨ids, hl⟩ := hi.lnk
  have hb := hi.bound
  have hnk := find_none.1 hf
  have hk : s.cache.load h = none := hl.load_none.2 hnk
  have hsz : (s.order.len : Int) = es.length := by rw [hl.len_eq]
  unfold addNew
  by_cases hc : (es.length : Int) ≥ cap
  · rw [if_pos hc]
    by_cases hne : es = []
    · subst hne
      have hb0 := hl.back_none
      refine ⟨{ s with order := (s.order.pushFront (h, value)).1, cache := s.cache.store h (s.order.pushFront (h, value)).2 }, ?_, ⟨_, hl.push (h, value) hnk⟩, ?_⟩
      · simp only [Seg.put, hk, hsz, hc, if_true, hb0, ne_eq, not_true_eq_false, if_false]
      · simp only [List.dropLast_nil, List.length_cons, List.length_nil]; push_cast; omega
    · obtain ⟨xs, i, exs, a, rfl, rfl, e3, e4, e5, e6⟩ := hl.back_some hne
      have hr := hl.remove e5 e6 rfl
      simp only [List.append_nil] at hr
      have hnk' : h ∉ exs.map Prod.fst := by
        intro hc; apply hnk; rw [List.map_append, List.mem_append]; exact Or.inl hc
      refine ⟨{ s with order := ((s.order.remove i).pushFront (h, value)).1, cache := (s.cache.delete a.1).store h ((s.order.remove i).pushFront (h, value)).2 }, ?_, ⟨_, by simpa using hr.push (h, value) hnk'⟩, ?_⟩
      · simp only [Seg.put, hk, hsz, hc, if_true, e3, ne_eq, e4, not_false_eq_true, remove_val, e5]
      · simp only [List.length_append, List.length_cons, List.length_nil, List.dropLast_concat] at hb hc ⊢
        push_cast at hb hc ⊢; omega
  · rw [if_neg hc]
    refine ⟨{ s with order := (s.order.pushFront (h, value)).1, cache := s.cache.store h (s.order.pushFront (h, value)).2 }, ?_, ⟨_, hl.push (h, value) hnk⟩, ?_⟩
    · simp only [Seg.put, hk, hsz, hc, if_false]
    · simp only [List.length_cons]; push_cast; omega

end Seg

/-! ### List operations under a renaming of keys and values -/
section Rename
variable {K L A B : Type} [DecidableEq K] [DecidableEq L] (h : K → L) (hi : Function.Injective h) (g : A → B)

/-- Renaming of an entry. -/
def ren (p : K × A) : L × B := (h p.1, g p.2)

include hi in
theorem find_ren (k : K) (es : List (K × A)) : find (h k) (es.map (ren h g)) = (find k es).map g := by
  induction es with
  | nil => rfl
  | cons p es ih =>
    by_cases hp : p.1 = k
    · have : h p.1 = h k := by rw [hp]
      simp [find, ren, hp]
    · have hne : h p.1 ≠ h k := fun hc => hp (hi hc)
      simp only [find, List.map_cons, ren] at ih ⊢
      rw [List.find?_cons_of_neg (by simpa using hne), List.find?_cons_of_neg (by simpa using hp)]
      exact ih

include hi in
theorem without_ren (k : K) (es : List (K × A)) : without (h k) (es.map (ren h g)) = (without k es).map (ren h g) := by
  simp only [without, List.filter_map]
  congr 1
  apply List.filter_congr
  intro p _
  simp [ren, hi.eq_iff]

include hi in
theorem setValue_ren (k : K) (v : A) (es : List (K × A)) :
    setValue (h k) (g v) (es.map (ren h g)) = (setValue k v es).map (ren h g) := by
  simp only [setValue, List.map_map]
  apply List.map_congr_left
  intro p _
  by_cases hp : p.1 = k
  · simp [ren, hp]
  · simp [ren, hp, hi.eq_iff]

omit [DecidableEq K] [DecidableEq L] in
theorem addNew_ren (cap : Int) (k : K) (v : A) (es : List (K × A)) :
    addNew cap (h k) (g v) (es.map (ren h g)) = (addNew cap k v es).map (ren h g) := by
  simp only [addNew, List.map_cons, List.length_map]
  split <;> simp [ren, List.map_dropLast]

end Rename

variable {K V : Type} [DecidableEq K] [GoValue V]

/-- An operation on the hashed keys. -/
def hashOp {L : Type} (h : K → L) : Op K V → Op L V
  | .put k v => .put (h k) v
  | .get k => .get (h k)
  | .del k => .del (h k)
  | .contains k => .contains (h k)
  | .clear => .clear
  | .len => .len

/-- Refinement relation: the segments hold `s` (keyed by hash, values as `any`). -/
structure Inv (c : LHM K V) (s : Nat → List (UInt64 × V)) : Prop where
  seg : ∀ i, SInv c.capacity (c.segments i) ((s i).map (ren id toAny))

theorem inv_new (h : K → UInt64) (cap : Int) (n : Nat) : Inv (new h cap n : LHM K V) (fun _ => []) :=
  ⟨fun _ => sinv_new _⟩

theorem Inv.setSeg {c : LHM K V} {s : Nat → List (UInt64 × V)} (h : Inv c s) (i : Nat) {g : Seg V}
    {es : List (UInt64 × V)} (hg : SInv c.capacity g (es.map (ren id toAny))) :
    Inv (setSeg c i g) (fun j => if j = i then es else s j) := by
  constructor
  intro j
  simp only [LimitHashMap.setSeg]
  by_cases hj : j = i
  · rw [if_pos hj, if_pos hj]; exact hg
  · rw [if_neg hj, if_neg hj]; exact h.seg j

theorem id_inj : Function.Injective (id : UInt64 → UInt64) := fun _ _ h => h

/-- The specification step on hashed keys. -/
abbrev hstep (n : Nat) (cap : Int) (s : Nat → List (UInt64 × V)) (o : Op UInt64 V) :=
  Spec.LimitHashMap.step GoValue.zero GoValue.isNil n cap (fun h : UInt64 => h.toNat % n) s o

theorem step_spec {c : LHM K V} {s : Nat → List (UInt64 × V)} (h : Inv c s) (o : Op K V) :
    (step c o).2 = (hstep c.segmentNumber c.capacity s (hashOp c.hashFunc o)).2 ∧
    Inv (step c o).1 (hstep c.segmentNumber c.capacity s (hashOp c.hashFunc o)).1 ∧
    (step c o).1.capacity = c.capacity ∧ (step c o).1.segmentNumber = c.segmentNumber ∧
    (step c o).1.hashFunc = c.hashFunc := by
  have hfind : ∀ k i, find k ((s i).map (ren id toAny)) = (find k (s i)).map toAny := fun k i =>
    find_ren id id_inj toAny k (s i)
  cases o with
  | put k v =>
    have hs := h.seg (segIdx c k)
    have hfk := hfind (c.hashFunc k) (segIdx c k)
    simp only [step, put, hashOp, hstep, Spec.LimitHashMap.step]
    change _ ∧ _
    cases hf : find (c.hashFunc k) (s (segIdx c k)) with
    | none =>
      rw [hf] at hfk
      obtain ⟨s', e1, e2⟩ := seg_put_new hs (c.hashFunc k) (toAny v) hfk
      rw [show (c.hashFunc k) = id (c.hashFunc k) from rfl, addNew_ren] at e2
      rw [show (c.hashFunc k).toNat % c.segmentNumber = segIdx c k from rfl, hf, e1]
      exact ⟨rfl, h.setSeg _ e2, rfl, rfl, rfl⟩
    | some old =>
      rw [hf] at hfk
      rw [show (c.hashFunc k).toNat % c.segmentNumber = segIdx c k from rfl, hf]
      by_cases hn : GoValue.isNil old = true
      · have : (some old).map toAny = some (none : Option V) := by simp [toAny, hn]
        rw [this] at hfk
        rw [seg_put_nil hs (c.hashFunc k) (toAny v) hfk]
        simp only [hn, if_true]
        exact ⟨trivial, h, trivial, trivial, trivial⟩
      · have : (some old).map toAny = some (some old) := by simp [toAny, hn]
        rw [this] at hfk
        obtain ⟨s', e1, e2⟩ := seg_put_old hs (c.hashFunc k) (toAny v) hfk
        rw [show (c.hashFunc k) = id (c.hashFunc k) from rfl, setValue_ren id id_inj] at e2
        rw [e1]
        simp only [hn, Bool.false_eq_true, if_false]
        exact ⟨rfl, h.setSeg _ e2, rfl, rfl, rfl⟩
  | get k =>
    refine ⟨?_, h, rfl, rfl, rfl⟩
    simp only [step, get, hashOp, Spec.LimitHashMap.step]
    rw [seg_get (h.seg _), hfind, show (c.hashFunc k).toNat % c.segmentNumber = segIdx c k from rfl]
    cases hf : find (c.hashFunc k) (s (segIdx c k)) with
    | none => rfl
    | some v =>
      by_cases hn : GoValue.isNil v = true
      · simp [toAny, hn, resVal]
      · simp [toAny, hn, resVal]
  | del k =>
    refine ⟨rfl, ?_, rfl, rfl, rfl⟩
    have e := seg_del (h.seg (segIdx c k)) (c.hashFunc k)
    rw [show (c.hashFunc k) = id (c.hashFunc k) from rfl, without_ren id id_inj] at e
    have := h.setSeg (segIdx c k) e
    simp only [step, del, hashOp, hstep, Spec.LimitHashMap.step]
    have he : (fun j => if j = (c.hashFunc k).toNat % c.segmentNumber then without (c.hashFunc k) (s j) else s j) =
        fun j => if j = segIdx c k then without (c.hashFunc k) (s (segIdx c k)) else s j := by
      funext j
      by_cases hj : j = segIdx c k
      · subst hj; rfl
      · rw [if_neg hj]; exact if_neg hj
    rw [he]; exact this
  | contains k =>
    refine ⟨?_, h, rfl, rfl, rfl⟩
    simp only [step, contains, hashOp, Spec.LimitHashMap.step]
    rw [seg_load (h.seg _), hfind, show (c.hashFunc k).toNat % c.segmentNumber = segIdx c k from rfl]
    cases find (c.hashFunc k) (s (segIdx c k)) <;> rfl
  | clear =>
    exact ⟨rfl, ⟨fun i => seg_clear (h.seg i)⟩, rfl, rfl, rfl⟩
  | len =>
    refine ⟨?_, h, rfl, rfl, rfl⟩
    simp only [step, len, hashOp, Spec.LimitHashMap.step]
    congr 3
    funext i
    obtain ⟨ids, hl⟩ := (h.seg i).lnk
    rw [hl.len_eq, List.length_map]

theorem run_spec {c : LHM K V} {s : Nat → List (UInt64 × V)} (h : Inv c s) (os : List (Op K V)) :
    run c os = Spec.LimitHashMap.run GoValue.zero GoValue.isNil c.segmentNumber c.capacity
      (fun x : UInt64 => x.toNat % c.segmentNumber) s (os.map (hashOp c.hashFunc)) ∧
    ∃ s', Inv (final c os) s' ∧ (final c os).capacity = c.capacity ∧ (final c os).segmentNumber = c.segmentNumber ∧
      (final c os).hashFunc = c.hashFunc := by
  induction os generalizing c s with
  | nil => exact ⟨rfl, s, h, rfl, rfl, rfl⟩
  | cons o os ih =>
    obtain ⟨h1, h2, h3, h4, h5⟩ := step_spec h o
    obtain ⟨h6, s', h7, h8, h9, h10⟩ := ih h2
    refine ⟨?_, s', h7, h8.trans h3, h9.trans h4, h10.trans h5⟩
    simp only [run, List.map_cons, Spec.LimitHashMap.run, h1]
    rw [h6, h3, h4, h5]

/-- Specification on keys = specification on injectively renamed keys. -/
theorem spec_ren {L : Type} [DecidableEq L] (h : K → L) (hi : Function.Injective h) (zv : V) (nil : V → Bool) (n : Nat)
    (cap : Int) (seg : L → Nat) (s : Nat → List (K × V)) (os : List (Op K V)) :
    Spec.LimitHashMap.run zv nil n cap seg (fun i => (s i).map (ren h id)) (os.map (hashOp h)) =
      Spec.LimitHashMap.run zv nil n cap (fun k => seg (h k)) s os := by
  induction os generalizing s with
  | nil => rfl
  | cons o os ih =>
    have key : (Spec.LimitHashMap.step zv nil n cap seg (fun i => (s i).map (ren h id)) (hashOp h o)).2 =
        (Spec.LimitHashMap.step zv nil n cap (fun k => seg (h k)) s o).2 ∧
        (Spec.LimitHashMap.step zv nil n cap seg (fun i => (s i).map (ren h id)) (hashOp h o)).1 =
        fun i => ((Spec.LimitHashMap.step zv nil n cap (fun k => seg (h k)) s o).1 i).map (ren h id) := by
      cases o with
      | put k v =>
        simp only [hashOp, Spec.LimitHashMap.step, find_ren h hi, Option.map_id]
        cases hf : find k (s (seg (h k))) with
        | none =>
          refine ⟨rfl, ?_⟩
          funext j
          by_cases hj : j = seg (h k)
          · simp only [id_eq, hj, if_true]
            exact addNew_ren h id cap k v _
          · simp [hj]
        | some old =>
          by_cases hn : nil old = true
          · simp [hn]
          · simp only [id_eq, hn, Bool.false_eq_true, if_false]
            refine ⟨trivial, ?_⟩
            funext j
            by_cases hj : j = seg (h k)
            · simp only [hj, if_true]
              exact setValue_ren h hi id k v _
            · simp [hj]
      | get k => simp only [hashOp, Spec.LimitHashMap.step, find_ren h hi, Option.map_id, id_eq, and_self]
      | del k =>
        refine ⟨rfl, ?_⟩
        funext j
        simp only [hashOp, Spec.LimitHashMap.step]
        by_cases hj : j = seg (h k)
        · simp only [hj, if_true]; exact without_ren h hi id k _
        · simp [hj]
      | contains k => simp only [hashOp, Spec.LimitHashMap.step, find_ren h hi, Option.map_id, id_eq, and_self]
      | clear => exact ⟨rfl, rfl⟩
      | len => simp [hashOp, Spec.LimitHashMap.step]
    simp only [List.map_cons, Spec.LimitHashMap.run, key.1, key.2, ih]

/-! ### Where stored values come from -/

/-- Every stored entry was put. -/
def Prov (h : K → UInt64) (s : Nat → List (UInt64 × V)) (os : List (Op K V)) : Prop :=
  ∀ i p, p ∈ s i → ∃ k, Op.put k p.2 ∈ os ∧ h k = p.1

theorem prov_step (h : K → UInt64) (n : Nat) (cap : Int) {s : Nat → List (UInt64 × V)} {os : List (Op K V)}
    (hp : Prov h s os) (o : Op K V) : Prov h (hstep n cap s (hashOp h o)).1 (os ++ [o]) := by
  have mono : ∀ {p : UInt64 × V}, (∃ k, Op.put k p.2 ∈ os ∧ h k = p.1) → ∃ k, Op.put k p.2 ∈ os ++ [o] ∧ h k = p.1 := by
    rintro p ⟨k, h1, h2⟩; exact ⟨k, List.mem_append_left _ h1, h2⟩
  intro i p hm
  cases o with
  | put k v =>
    simp only [hstep, hashOp, Spec.LimitHashMap.step] at hm
    have hnew : ∃ k', Op.put k' v ∈ os ++ [Op.put k v] ∧ h k' = h k := ⟨k, by simp, rfl⟩
    revert hm
    split
    · split
      · intro hm; exact mono (hp i p hm)
      · intro hm
        dsimp only at hm
        split at hm
        · simp only [setValue, List.mem_map] at hm
          obtain ⟨q, hq, rfl⟩ := hm
          split
          · rename_i hk; rw [hk]; exact hnew
          · exact mono (hp _ q hq)
        · exact mono (hp i p hm)
    · intro hm
      dsimp only at hm
      split at hm
      · simp only [addNew, List.mem_cons] at hm
        rcases hm with rfl | hm
        · exact hnew
        · split at hm
          · exact mono (hp _ p ((List.dropLast_sublist _).mem hm))
          · exact mono (hp _ p hm)
      · exact mono (hp i p hm)
  | get k => exact mono (hp i p hm)
  | del k =>
    simp only [hstep, hashOp, Spec.LimitHashMap.step] at hm
    split at hm
    · exact mono (hp i p (List.mem_of_mem_filter hm))
    · exact mono (hp i p hm)
  | contains k => exact mono (hp i p hm)
  | clear => simp [hstep, hashOp, Spec.LimitHashMap.step] at hm
  | len => exact mono (hp i p hm)

theorem prov_final (c : LHM K V) (s : Nat → List (UInt64 × V)) (done os : List (Op K V)) (hi : Inv c s)
    (hp : Prov c.hashFunc s done) :
    ∃ s', Inv (final c os) s' ∧ Prov c.hashFunc s' (done ++ os) ∧ (final c os).capacity = c.capacity ∧
      (final c os).segmentNumber = c.segmentNumber ∧ (final c os).hashFunc = c.hashFunc := by
  induction os generalizing c s done with
  | nil => exact ⟨s, hi, by simpa using hp, rfl, rfl, rfl⟩
  | cons o os ih =>
    obtain ⟨_, h2, h3, h4, h5⟩ := step_spec hi o
    have hp' := prov_step c.hashFunc c.segmentNumber c.capacity hp o
    obtain ⟨s', e1, e2, e3, e4, e5⟩ := ih (step c o).1 _ (done ++ [o]) h2 (by rw [h5]; exact hp')
    rw [h3] at e3; rw [h4] at e4; rw [h5] at e5 e2
    exact ⟨s', e1, by simpa using e2, e3, e4, e5⟩

theorem get_eq {c : LHM K V} {s : Nat → List (UInt64 × V)} (h : Inv c s) (k : K) :
    get c k = ((find (c.hashFunc k) (s (segIdx c k))).map toAny).join := by
  rw [get, seg_get (h.seg _)]
  congr 1
  exact find_ren id id_inj toAny _ _

theorem mem_of_find {K A : Type} [DecidableEq K] {k : K} {a : A} {es : List (K × A)} (h : find k es = some a) :
    (k, a) ∈ es := by
  simp only [find, Option.map_eq_some_iff] at h
  obtain ⟨p, h1, rfl⟩ := h
  have h2 := List.find?_some h1
  have h3 := List.mem_of_find?_eq_some h1
  simp only [decide_eq_true_eq] at h2
  rw [← h2]; exact h3

theorem len_le {c : LHM K V} {s : Nat → List (UInt64 × V)} (h : Inv c s) :
    (len c : Int) ≤ c.segmentNumber * max c.capacity 1 := by
  have : ∀ n : Nat, ((((List.range n).map fun i => (c.segments i).order.len).sum : Nat) : Int) ≤ n * max c.capacity 1 := by
    intro n
    induction n with
    | zero => simp
    | succ n ih =>
      obtain ⟨ids, hl⟩ := (h.seg n).lnk
      have hb := (h.seg n).bound
      rw [List.range_succ, List.map_append, List.sum_append]
      simp only [List.map_cons, List.map_nil, List.sum_cons, List.sum_nil, hl.len_eq]
      push_cast
      rw [add_mul]
      omega
  exact this c.segmentNumber

end Gofer.LimitHashMap
