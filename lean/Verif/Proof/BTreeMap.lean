import Verif.Proof.BTreeCongr
import Verif.Proof.TreeMap

/-! # `TreeMap` over the B-tree refines the sorted list -/
namespace Gofer.BTreeMap
open Gofer.TreeMap (Item Sorted Inv)
open Gofer.Spec.TreeMap (Op Res visit)
open Gofer.BTree (Good)

def opKey {K V : Type} : Op K V → K
  | .put k _ => k
  | .get k => k
  | .del k => k

variable {K V : Type} [LinearOrder K]

/-- The order `f` agrees with `<` on the keys of `P`. -/
def Ordered (P : K → Prop) (f : K → K → Bool) : Prop := ∀ a b, P a → P b → f a b = decide (a < b)

theorem agree {P : K → Prop} {f : K → K → Bool} (h : Ordered P f) :
    BTree.Agree (fun i : Item K V => P i.key) (less f) (BTree.lt) := fun a b ha hb => h a.key b.key ha hb

theorem step_spec {P : K → Prop} {f : K → K → Bool} (hf : Ordered P f) (zv : V) {d : Nat} (hd : 2 ≤ d) {m : BTree.BT (Item K V)}
    {s : List (Item K V)} {σ : K → Option V} (hg : Good d m s) (hi : Inv ⟨s⟩ σ) (hp : ∀ i ∈ s, P i.key) (o : Op K V) (ho : P (opKey o)) :
    ∃ m' s', step f zv m o = some (m', (Spec.TreeMap.step zv σ o).2) ∧ Good d m' s' ∧ Inv ⟨s'⟩ (Spec.TreeMap.step zv σ o).1 ∧
      ∀ i ∈ s', P i.key := by
  obtain ⟨h1, h2⟩ := TreeMap.step_spec zv hi o
  have hs : Sorted s := hi.sorted
  cases o with
  | put k v =>
    obtain ⟨t', r1, r2⟩ := BTree.roi_top hd hg hs ⟨k, v⟩
    refine ⟨t', (TreeMap.replaceOrInsert s ⟨k, v⟩).1, ?_, r2, ?_, ?_⟩
    · rw [← h1]
      simp only [step, put, BTree.roi_congr (agree hf) hd hg hp (x := ⟨k, v⟩) ho, r1, Option.map_some, TreeMap.step, TreeMap.put]
      cases (TreeMap.replaceOrInsert s ⟨k, v⟩).2 <;> rfl
    · have e : (TreeMap.step zv ⟨s⟩ (.put k v)).1 = ⟨(TreeMap.replaceOrInsert s ⟨k, v⟩).1⟩ := by
        simp only [TreeMap.step, TreeMap.put]
        split <;> rfl
      rw [← e]; exact h2
    · intro i hi'
      rcases (TreeMap.roi_mem hs ⟨k, v⟩ i).1 hi' with rfl | ⟨hm, _⟩
      · exact ho
      · exact hp i hm
  | get k =>
    refine ⟨m, s, ?_, hg, h2, hp⟩
    rw [← h1]
    simp only [step, get, BTree.get_congr (agree hf) hg hp (x := ⟨k, zv⟩) ho, BTree.get_top hg hs, Option.map_some, TreeMap.step, TreeMap.get]
  | del k =>
    obtain ⟨t', r1, r2⟩ := BTree.del_top hd hg hs ⟨k, zv⟩
    refine ⟨t', TreeMap.treeDelete s ⟨k, zv⟩, ?_, r2, h2, ?_⟩
    · rw [← h1]
      simp only [step, del, BTree.del_congr (agree hf) hd hg hs hp (x := ⟨k, zv⟩) ho, r1, Option.map_some, TreeMap.step]
    · intro i hi'
      exact hp i ((TreeMap.del_mem hs ⟨k, zv⟩ i).1 hi').1

theorem run_spec {P : K → Prop} {f : K → K → Bool} (hf : Ordered P f) (zv : V) {d : Nat} (hd : 2 ≤ d) (os : List (Op K V)) :
    ∀ {m : BTree.BT (Item K V)} {s : List (Item K V)} {σ : K → Option V}, Good d m s → Inv ⟨s⟩ σ → (∀ i ∈ s, P i.key) →
    (∀ o ∈ os, P (opKey o)) →
    ∃ m' s', run f zv m os = some (m', Spec.TreeMap.run zv σ os) ∧ Good d m' s' ∧ Inv ⟨s'⟩ (Spec.TreeMap.final zv σ os) ∧
      ∀ i ∈ s', P i.key := by
  induction os with
  | nil => intro m s σ hg hi hp _; exact ⟨m, s, rfl, hg, hi, hp⟩
  | cons o os ih =>
    intro m s σ hg hi hp ho
    obtain ⟨m1, s1, e1, g1, i1, p1⟩ := step_spec hf zv hd hg hi hp o (ho o (by simp))
    obtain ⟨m2, s2, e2, g2, i2, p2⟩ := ih g1 i1 p1 (fun o h => ho o (List.mem_cons_of_mem _ h))
    refine ⟨m2, s2, ?_, g2, i2, p2⟩
    simp only [run, e1, e2, Option.map_some, Spec.TreeMap.run]

theorem newRun_spec {P : K → Prop} {f : K → K → Bool} (hf : Ordered P f) (zv : V) {d : Int} (hd : 2 ≤ d) (os : List (Op K V))
    (ho : ∀ o ∈ os, P (opKey o)) :
    ∃ m' s', newRun f zv d os = some (m', Spec.TreeMap.run zv (fun _ => none) os) ∧ Good d.toNat m' s' ∧
      Inv ⟨s'⟩ (Spec.TreeMap.final zv (fun _ => none) os) ∧ ∀ i ∈ s', P i.key := by
  have hn : ¬ d ≤ 1 := by omega
  simp only [newRun, BTree.new, if_neg hn]
  refine run_spec hf zv (d := d.toNat) (by omega) os (s := []) ⟨rfl, rfl, fun _ => rfl, by simp⟩ ⟨List.Pairwise.nil, by simp⟩ (by simp) ho

theorem show_visit {K V : Type} (f : List (K × V) → K → V → Bool) (s : List (Item K V)) (seen : List (K × V)) :
    (BTree.show' (fun seen (i : Item K V) => f seen i.key i.value) (fun i => (i.key, i.value)) s seen).1 =
      visit f (s.map fun i => (i.key, i.value)) seen := by
  induction s generalizing seen with
  | nil => rfl
  | cons i s ih =>
    simp only [BTree.show', List.map_cons, visit]
    split
    · exact ih _
    · rfl

theorem ascend_spec {K V : Type} {d : Nat} {m : BTree.BT (Item K V)} {s : List (Item K V)} (hg : Good d m s) (f : List (K × V) → K → V → Bool) :
    ascend m f = visit f (s.map fun i => (i.key, i.value)) [] := by
  simp only [ascend, BTree.ascend_top hg, show_visit]

theorem descend_spec {K V : Type} {d : Nat} {m : BTree.BT (Item K V)} {s : List (Item K V)} (hg : Good d m s) (f : List (K × V) → K → V → Bool) :
    descend m f = visit f (s.map fun i => (i.key, i.value)).reverse [] := by
  simp only [descend, BTree.descend_top hg, show_visit, List.map_reverse]

theorem visit_all {K V : Type} (l seen : List (K × V)) : visit (fun _ _ _ => true) l seen = seen ++ l := by
  induction l generalizing seen with
  | nil => simp [visit]
  | cons p l ih => simp [visit, ih]

end Gofer.BTreeMap
