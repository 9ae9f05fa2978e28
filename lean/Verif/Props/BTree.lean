import Verif.Proof.FloatKey
import Mathlib.Order.Nat

/-! # `TreeMap` over a real B-tree: properties C163, C164 -/
namespace Gofer.Props.BTree
open Gofer.BTreeMap
open Gofer.TreeMap (Item)
open Gofer.Spec.TreeMap (Op Res visit)

section C163
variable {K V : Type} [LinearOrder K]

/-- C163. `NewTreeMap(degree)` panics exactly when the degree is below 2. -/
theorem C163_degree (zv : V) (degree : Int) :
    newRun (fun a b : K => decide (a < b)) zv degree [] = none ↔ degree < 2 := by
  simp only [newRun, BTree.new]
  constructor
  · intro h
    by_contra hd
    rw [if_neg (by omega)] at h
    cases h
  · intro h
    rw [if_pos (by omega)]

/-- C163. For every degree of at least 2, no history of `Put`, `Get` and `Del` panics, and every call answers
as a partial function does. -/
theorem C163_refines (zv : V) (degree : Int) (hd : 2 ≤ degree) (os : List (Op K V)) :
    (newRun (fun a b : K => decide (a < b)) zv degree os).map Prod.snd = some (Spec.TreeMap.run zv (fun _ => none) os) := by
  obtain ⟨m, s, e, _⟩ := newRun_spec (P := fun _ => True) (f := fun a b : K => decide (a < b)) (fun _ _ _ _ => rfl) zv hd os (fun _ _ => trivial)
  rw [e]; rfl

/-- C163. After every history the tree holds one list of entries with strictly increasing keys, exactly the
present keys with their values; `Ascend` shows it in order and `Descend` in the exact reverse, both until the
callback returns false. Whatever the degree, the map looks the same. -/
theorem C163_iteration (zv : V) (os : List (Op K V)) :
    ∃ l : List (K × V), l.Pairwise (fun a b => a.1 < b.1) ∧
      (∀ k v, (k, v) ∈ l ↔ Spec.TreeMap.final zv (fun _ => none) os k = some v) ∧
      ∀ degree : Int, 2 ≤ degree → ∀ m rs, newRun (fun a b : K => decide (a < b)) zv degree os = some (m, rs) →
        (∀ f, ascend m f = visit f l []) ∧ (∀ f, descend m f = visit f l.reverse []) := by
  have h0 := (TreeMap.run_spec zv (m := TreeMap.new) (s := fun _ => none) ⟨List.Pairwise.nil, by simp [TreeMap.new]⟩ os).2
  have hmem : ∀ (s : List (Item K V)), TreeMap.Inv ⟨s⟩ (Spec.TreeMap.final zv (fun _ => none) os) → ∀ k v,
      (k, v) ∈ s.map (fun i => (i.key, i.value)) ↔ Spec.TreeMap.final zv (fun _ => none) os k = some v := by
    intro s hi k v
    rw [hi.map, List.mem_map]
    constructor
    · rintro ⟨⟨ik, iv⟩, h1, h2⟩
      simp only [Prod.mk.injEq] at h2
      obtain ⟨rfl, rfl⟩ := h2; exact h1
    · intro h1; exact ⟨_, h1, rfl⟩
  have hsort : ∀ (s : List (Item K V)), TreeMap.Inv ⟨s⟩ (Spec.TreeMap.final zv (fun _ => none) os) →
      (s.map fun i => (i.key, i.value)).Pairwise (fun a b => a.1 < b.1) := by
    intro s hi
    rw [List.pairwise_map]; exact hi.sorted
  refine ⟨(TreeMap.final zv TreeMap.new os).tree.map fun i => (i.key, i.value), hsort _ h0, hmem _ h0, ?_⟩
  intro degree hd m rs hm
  obtain ⟨m', s, e, hg, hi, _⟩ := newRun_spec (P := fun _ => True) (f := fun a b : K => decide (a < b)) (fun _ _ _ _ => rfl) zv hd os (fun _ _ => trivial)
  rw [e] at hm
  have hmm : m' = m := by injection hm with h; exact (Prod.mk.inj h).1
  subst hmm
  have hsame : s = (TreeMap.final zv TreeMap.new os).tree := by
    apply List.Perm.eq_of_pairwise (le := fun a b : Item K V => a.key < b.key) _ hi.sorted h0.sorted
    · rw [List.perm_ext_iff_of_nodup]
      · rintro ⟨k, v⟩
        rw [← hi.map, ← h0.map]
      · exact hi.sorted.imp fun h => by rintro rfl; exact lt_irrefl _ h
      · exact h0.sorted.imp fun h => by rintro rfl; exact lt_irrefl _ h
    · intro a b _ _ h1 h2; exact absurd (lt_trans h1 h2) (lt_irrefl _)
  subst hsame
  exact ⟨fun f => ascend_spec hg f, fun f => descend_spec hg f⟩

/-- C163. The tree is flat: above a tree of height `h` there are at least `2 * degree ^ h - 1` entries, so a
call walks down a number of nodes that is logarithmic in the number of entries. -/
theorem C163_depth (zv : V) (degree : Int) (hd : 2 ≤ degree) (os : List (Op K V)) (m rs)
    (hm : newRun (fun a b : K => decide (a < b)) zv degree os = some (m, rs)) (h : Nat) (n : BTree.Node (Item K V) h)
    (hr : m.root = some ⟨h, n⟩) (hpos : 0 < h) : 2 * degree.toNat ^ h ≤ (ascend m (fun _ _ _ => true)).length + 1 := by
  obtain ⟨m', s, e, hg, hi, _⟩ := newRun_spec (P := fun _ => True) (f := fun a b : K => decide (a < b)) (fun _ _ _ _ => rfl) zv hd os (fun _ _ => trivial)
  rw [e] at hm
  have hmm : m' = m := by injection hm with h; exact (Prod.mk.inj h).1
  subst hmm
  rw [ascend_spec hg, visit_all]
  simpa using BTree.depth_top (by omega) hg h n hr hpos

/-- Twenty entries in a tree of degree 2, then half of them deleted: three levels, splits, steals and merges. -/
def many : List (Op Nat Nat) :=
  ((List.range 20).map fun i => .put (i * 7 % 20) i) ++ ((List.range 10).map fun i => .del (i * 3 % 20)) ++ [.get 0, .get 1, .get 19]

example : (newRun (fun a b : Nat => decide (a < b)) 0 2 many).map (fun r => (r.2.drop 30, (ascend r.1 fun _ _ _ => true).map Prod.fst)) =
    some ([.val 0 false, .val 0 false, .val 17 true], [2, 5, 8, 10, 11, 13, 14, 16, 17, 19]) := by
  decide +kernel

example : ((newRun (fun a b : Nat => decide (a < b)) 0 2 (many.take 20)).bind fun r => r.1.root.map Sigma.fst) = some 2 := by
  decide +kernel

end C163

section C164
open Gofer.Spec (FloatKey.lt)

/-- C164, what one would expect: a `Put` does not change what `Get` of another key answers, for all keys. -/
def C164_claim : Prop :=
  ∀ (K V : Type) [LinearOrder K] (zv : V) (degree : Int), 2 ≤ degree → ∀ (os : List (Op (Option K) V)) (k k' : Option K) (v : V), k ≠ k' →
    (newRun FloatKey.lt zv degree (os ++ [.put k v, .get k'])).map (fun r => r.2.getLast?) =
      (newRun FloatKey.lt zv degree (os ++ [.get k'])).map (fun r => r.2.getLast?)

/-- C164. It fails for NaN: after `Put(1, 10)`, `Put(NaN, 5)` takes the place of the key 1. -/
theorem C164_claim_false : ¬ C164_claim := by
  intro h
  have := h Nat Nat 0 2 (by decide) [.put (some 1) 10] none (some 1) 5 (by decide)
  revert this
  decide +kernel

variable {K V : Type} [LinearOrder K]

/-- C164. In a map that is not empty and got only ordinary keys, of any degree and after any history, `Get(NaN)`
finds the value of some other key. -/
theorem C164_nan_get (zv : V) (degree : Int) (hd : 2 ≤ degree) (os : List (Op (Option K) V)) (ho : ∀ o ∈ os, opKey o ≠ none) (m rs)
    (hm : newRun FloatKey.lt zv degree os = some (m, rs)) (hne : ascend m (fun _ _ _ => true) ≠ []) :
    ∃ k v, (some k, v) ∈ ascend m (fun _ _ _ => true) ∧ get FloatKey.lt zv m none = some (some v) := by
  obtain ⟨m', s, e, hg, hp, _⟩ := flt_run zv hd os ho
  rw [e] at hm
  have hmm : m' = m := by injection hm with h; exact (Prod.mk.inj h).1
  subst hmm
  rw [ascend_spec hg, visit_all, List.nil_append] at *
  obtain ⟨⟨k, v⟩, hy, hget⟩ := BTree.get_nan (unordered_nan zv) hg (by intro h; subst h; exact hne rfl)
  cases k with
  | none => exact absurd rfl (hp _ hy)
  | some k =>
    refine ⟨k, v, List.mem_map.2 ⟨_, hy, rfl⟩, ?_⟩
    simp only [BTreeMap.get, hget, Option.map_some]

/-- C164. In such a map `Put(NaN, v)` reports the value of some other key as the previous one, and that key is
lost: the entry of NaN is shown in its place. -/
theorem C164_nan_put (zv : V) (degree : Int) (hd : 2 ≤ degree) (os : List (Op (Option K) V)) (ho : ∀ o ∈ os, opKey o ≠ none) (m rs)
    (hm : newRun FloatKey.lt zv degree os = some (m, rs)) (hne : ascend m (fun _ _ _ => true) ≠ []) (v : V) :
    ∃ A k w B m', ascend m (fun _ _ _ => true) = A ++ (some k, w) :: B ∧ put FloatKey.lt m none v = some (m', some w) ∧
      ascend m' (fun _ _ _ => true) = A ++ (none, v) :: B := by
  obtain ⟨m', s, e, hg, hp, _⟩ := flt_run zv hd os ho
  rw [e] at hm
  have hmm : m' = m := by injection hm with h; exact (Prod.mk.inj h).1
  subst hmm
  rw [ascend_spec hg, visit_all, List.nil_append] at *
  obtain ⟨A, ⟨k, w⟩, B, t', e1, e2, e3⟩ := BTree.roi_nan (unordered_nan v) (by omega) hg (by intro h; subst h; exact hne rfl)
  subst e1
  cases k with
  | none => exact absurd rfl (hp ⟨none, w⟩ (by simp))
  | some k =>
    refine ⟨A.map fun i => (i.key, i.value), k, w, B.map fun i => (i.key, i.value), t', by simp, ?_, ?_⟩
    · simp only [put, e2, Option.map_some]
    · rw [ascend_spec e3, visit_all]; simp

/-- C164. In such a map `Del(NaN)` deletes the entry of some other key. -/
theorem C164_nan_del (zv : V) (degree : Int) (hd : 2 ≤ degree) (os : List (Op (Option K) V)) (ho : ∀ o ∈ os, opKey o ≠ none) (m rs)
    (hm : newRun FloatKey.lt zv degree os = some (m, rs)) (hne : ascend m (fun _ _ _ => true) ≠ []) :
    ∃ A k w B m', ascend m (fun _ _ _ => true) = A ++ (some k, w) :: B ∧ del FloatKey.lt zv m none = some m' ∧
      ascend m' (fun _ _ _ => true) = A ++ B := by
  obtain ⟨m', s, e, hg, hp, _, _, hdel⟩ := flt_run zv hd os ho
  rw [e] at hm
  have hmm : m' = m := by injection hm with h; exact (Prod.mk.inj h).1
  subst hmm
  rw [ascend_spec hg, visit_all, List.nil_append] at *
  obtain ⟨A, ⟨k, w⟩, B, t', e1, e2, e3⟩ := hdel (by intro h; subst h; exact hne rfl) zv
  subst e1
  cases k with
  | none => exact absurd rfl (hp ⟨none, w⟩ (by simp))
  | some k =>
    refine ⟨A.map fun i => (i.key, i.value), k, w, B.map fun i => (i.key, i.value), t', by simp, ?_, ?_⟩
    · simp only [del, e2, Option.map_some]
    · rw [ascend_spec e3, visit_all]; simp

/-- C164, what does hold: without NaN keys, every history of calls with floating-point keys answers as a partial
function does, and iterations show the present entries in increasing order. -/
theorem C164_partial (zv : V) (degree : Int) (hd : 2 ≤ degree) (os : List (Op (Option K) V)) (ho : ∀ o ∈ os, opKey o ≠ none) :
    ∃ m l, newRun FloatKey.lt zv degree os = some (m, Spec.TreeMap.run zv (fun _ => none) os) ∧
      l.Pairwise (fun a b => FloatKey.lt a.1 b.1 = true) ∧
      (∀ k v, (k, v) ∈ l ↔ Spec.TreeMap.final zv (fun _ => none) os k = some v) ∧
      (∀ f, ascend m f = visit f l []) ∧ (∀ f, descend m f = visit f l.reverse []) := by
  obtain ⟨m, s, e, hg, hp, hmap, hsort, _⟩ := flt_run zv hd os ho
  refine ⟨m, s.map fun i => (i.key, i.value), e, ?_, ?_, fun f => ascend_spec hg f, fun f => descend_spec hg f⟩
  · rw [List.pairwise_map]; exact hsort
  · intro k v
    rw [hmap, List.mem_map]
    constructor
    · rintro ⟨⟨ik, iv⟩, h1, h2⟩
      simp only [Prod.mk.injEq] at h2
      obtain ⟨rfl, rfl⟩ := h2; exact h1
    · intro h1; exact ⟨_, h1, rfl⟩

/-- A map of degree 2 with five keys: `Get(NaN)`, `Put(NaN, 99)`, `Del(NaN)`. -/
def five : List (Op (Option Nat) Nat) := [1, 2, 3, 4, 5].map fun k => .put (some k) (k * 10)

example : (newRun FloatKey.lt 0 2 five).bind (fun r => BTreeMap.get FloatKey.lt 0 r.1 none) = some (some 20) := by decide +kernel

example : ((newRun FloatKey.lt 0 2 five).bind fun r => put FloatKey.lt r.1 none 99).map (fun p => p.2) = some (some 20) ∧
    ((newRun FloatKey.lt 0 2 five).bind fun r => put FloatKey.lt r.1 none 99).map (fun p => ascend p.1 fun _ _ _ => true) =
      some [(some 1, 10), (none, 99), (some 3, 30), (some 4, 40), (some 5, 50)] := by decide +kernel

example : ((newRun FloatKey.lt 0 2 five).bind fun r => del FloatKey.lt 0 r.1 none).map (fun p => ascend p fun _ _ _ => true) =
      some [(some 1, 10), (some 2, 20), (some 4, 40), (some 5, 50)] := by decide +kernel

/-- The other way round: a NaN in the map is overwritten by the next ordinary key. -/
example : (newRun FloatKey.lt 0 2 [.put none 7, .put (some (1 : Nat)) 10, .get none]).map Prod.snd =
    some [.val 0 false, .val 7 true, .val 10 true] := by decide +kernel

end C164

end Gofer.Props.BTree
