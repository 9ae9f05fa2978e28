import Verif.Proof.LinkedExec
import Verif.Proof.Relaxed
import Mathlib.Data.List.Perm.Subperm
/-!
# C161: `LinkedHashMap` under concurrent use (hashmap/linkedhashmap.go)

All numbers of goroutines, all interleavings of the statements inside the mutex with `Get`s, which take no mutex.
-/
namespace Gofer.Props.LinkedConc
open Gofer.LinkedConc
open Gofer.Spec.Linear (Ev Linearizable)
open Gofer.Spec.Recency (Op Res)
open Gofer.Spec.Relaxed (Explained Accepts Item)

variable {K V : Type} [DecidableEq K]

/-- C161, in full: every concurrent history is explained by one order of the calls that respects time and in which the sequential map bounded by evicting the oldest
entry gives the same results. -/
def C161_claim : Prop :=
  ∀ (limit : Int) (n : Nat) (as : List (Act n Nat Nat)) (s : St n Nat Nat), exec 0 0 (init limit) as = some s →
    Linearizable (Spec.Recency.run 0 0 limit []) s.hist

/-- Limit 1, key 1 is there. Goroutine 0 puts key 2 and has swapped it in, but not yet removed key 1; goroutine 1 gets key 2, then key 1, and finds both. -/
def both : List (Act 2 Nat Nat) :=
  [.call 0 (.put 1 10), .lock 0, .micro 0, .micro 0, .micro 0, .unlock 0, .ret 0,
    .call 0 (.put 2 20), .lock 0, .micro 0, .micro 0,
    .call 1 (.get 2), .read 1, .load 1, .ret 1, .call 1 (.get 1), .read 1, .load 1, .ret 1,
    .micro 0, .micro 0, .unlock 0, .ret 0]

/-- What is seen. -/
def bothHist : List (Ev (Op Nat Nat) (Res Nat Nat)) :=
  [.inv 0 (.put 1 10), .res 0 .unit, .inv 1 (.put 2 20), .inv 2 (.get 2), .res 2 (.val 20 true), .inv 3 (.get 1), .res 3 (.val 10 true), .res 1 .unit]

/-- The four calls. -/
def four : List (Nat × Op Nat Nat × Res Nat Nat) :=
  [(0, .put 1 10, .unit), (1, .put 2 20, .unit), (2, .get 2, .val 20 true), (3, .get 1, .val 10 true)]

/-- Whether an order gives its results and has 0 before 1 and 2 before 3. -/
def good (L : List (Nat × Op Nat Nat × Res Nat Nat)) : Bool :=
  decide (L.map (fun x => x.2.2) = Spec.Recency.run 0 0 1 [] (L.map (fun x => x.2.1))) && decide ((L.map (fun x => x.1)).Nodup) &&
    decide ((L.map (fun x => x.1)).idxOf 0 < (L.map (fun x => x.1)).idxOf 1) && decide ((L.map (fun x => x.1)).idxOf 2 < (L.map (fun x => x.1)).idxOf 3)

/-- No order of the four calls is good. -/
theorem four_wrong : (four.all fun a => four.all fun b => four.all fun c => four.all fun d => !good [a, b, c, d]) = true := by decide +kernel

theorem four_id : ∀ z ∈ four, ∀ w ∈ four, z.1 = w.1 → z = w := by decide

theorem bothHist_wrong : ¬ Linearizable (Spec.Recency.run 0 0 1 []) bothHist := by
  rintro ⟨L, l1, l2, l3, l4, l5⟩
  have uniq : ∀ x ∈ L, ∀ y ∈ L, x.1 = y.1 → x = y := fun x hx y hy e => List.inj_on_of_nodup_map l1 hx hy e
  have ops : ∀ x ∈ L, (x.1, x.2.1) ∈ four.map (fun z => (z.1, z.2.1)) := by
    intro x hx
    have := l2 x hx
    simp only [bothHist, List.mem_cons, Ev.inv.injEq, reduceCtorEq, List.not_mem_nil, or_false, false_or] at this
    simp only [four, List.map_cons, List.map_nil, List.mem_cons, Prod.mk.injEq, List.not_mem_nil, or_false]
    rcases this with h | h | h | h <;> simp [h]
  have res : ∀ z ∈ four, z ∈ L := by
    intro z hz
    have hr : Ev.res z.1 z.2.2 ∈ bothHist := by
      simp only [four, List.mem_cons, List.not_mem_nil, or_false] at hz
      rcases hz with rfl | rfl | rfl | rfl <;> simp [bothHist]
    obtain ⟨op, ho⟩ := l3 _ _ hr
    have h2 := ops _ ho
    rw [List.mem_map] at h2
    obtain ⟨w, hw, e⟩ := h2
    simp only [Prod.mk.injEq] at e
    have hzw := four_id z hz w hw e.1.symm
    have : (z.1, op, z.2.2) = z := by rw [← e.2, ← hzw]
    rw [← this]; exact ho
  have sub : L ⊆ four := by
    intro x hx
    have h2 := ops x hx
    rw [List.mem_map] at h2
    obtain ⟨z, hz, e⟩ := h2
    have := uniq x hx z (res z hz) (by simp only [Prod.mk.injEq] at e; exact e.1.symm)
    rw [this]; exact hz
  have hle : L.length ≤ 4 := (List.subperm_of_subset (List.Nodup.of_map _ l1) sub).length_le
  have hge : 4 ≤ L.length := (List.subperm_of_subset (l₁ := four) (by decide) (fun z hz => res z hz)).length_le
  have hlen : L.length = 4 := by omega
  obtain ⟨a, b, c, d, rfl⟩ : ∃ a b c d, L = [a, b, c, d] := by
    match L, hlen with
    | [a, b, c, d], _ => exact ⟨a, b, c, d, rfl⟩
  have hbad : good [a, b, c, d] = false := by
    have := List.all_eq_true.1 (List.all_eq_true.1 (List.all_eq_true.1 (List.all_eq_true.1 four_wrong a (sub (by simp))) b (sub (by simp))) c
      (sub (by simp))) d (sub (by simp))
    simpa using this
  have pos : ∀ z ∈ four, ∃ p, [a, b, c, d][([a, b, c, d].map (fun x => x.1)).idxOf z.1]? = some p ∧ p.1 = z.1 := by
    intro z hz
    have hm : z.1 ∈ [a, b, c, d].map (fun x => x.1) := List.mem_map.2 ⟨z, res z hz, rfl⟩
    have hg := List.getElem?_idxOf hm
    rw [List.getElem?_map, Option.map_eq_some_iff] at hg
    exact hg
  obtain ⟨p0, a0, b0⟩ := pos (0, .put 1 10, .unit) (by simp [four])
  obtain ⟨p1, a1, b1⟩ := pos (1, .put 2 20, .unit) (by simp [four])
  obtain ⟨p2, a2, b2⟩ := pos (2, .get 2, .val 20 true) (by simp [four])
  obtain ⟨p3, a3, b3⟩ := pos (3, .get 1, .val 10 true) (by simp [four])
  have o1 := l5 1 2 0 .unit 1 (.put 2 20) rfl rfl (by decide) _ _ p0 p1 a0 a1 b0 b1
  have o2 := l5 4 5 2 (.val 20 true) 3 (.get 1) rfl rfl (by decide) _ _ p2 p3 a2 a3 b2 b3
  have : good [a, b, c, d] = true := by
    unfold good
    rw [decide_eq_true l4, decide_eq_true l1, decide_eq_true o1, decide_eq_true o2]
    rfl
  rw [this] at hbad
  simp at hbad

/-- C161 refuted: with limit 1, one goroutine finds the entry a `Put` in progress brings and then the entry it takes away. -/
theorem C161_claim_false : ¬ C161_claim := by
  intro h
  have hs : (exec 0 0 (init 1) both).map (fun s => s.hist) = some bothHist := by decide +kernel
  cases he : exec 0 0 (init 1) both with
  | none => rw [he] at hs; simp at hs
  | some s =>
    rw [he] at hs
    simp only [Option.map_some, Option.some.injEq] at hs
    exact bothHist_wrong (hs ▸ h 1 2 both s he)

/-- C161, the part that holds: every concurrent history is explained by an order of effects that respects time, in which a Put of a new key over the limit has two
effects, the new entry and then the oldest one going, with nothing but Gets in between; all results are those of this order. -/
theorem C161_explained_partial (zk : K) (zv : V) (limit : Int) (n : Nat) (as : List (Act n K V)) (s : St n K V)
    (h : exec zk zv (init limit) as = some s) : Explained zk zv limit s.hist :=
  (inv_exec as (inv_init zk zv limit) h).explained

/-- C161, the part that holds: as long as nobody calls Get, every concurrent history is linearizable in full. -/
theorem C161_linearizable_partial (zk : K) (zv : V) (limit : Int) (n : Nat) (as : List (Act n K V)) (s : St n K V)
    (h : exec zk zv (init limit) as = some s) (hg : ∀ i k, Ev.inv i (.get k) ∉ s.hist) :
    Linearizable (Spec.Recency.run zk zv limit []) s.hist :=
  Spec.Relaxed.linearizable zk zv limit s.hist (C161_explained_partial zk zv limit n as s h) hg

/-- C161: whenever nobody holds the mutex, the container has at most `limit` entries, `Len` says how many, and Get finds exactly these. -/
theorem C161_at_rest (zk : K) (zv : V) (limit : Int) (n : Nat) (as : List (Act n K V)) (s : St n K V)
    (h : exec zk zv (init limit) as = some s) (hq : ∀ t, (s.pc t).holds = false) :
    ∃ es : List (K × V), (es.map (fun p => p.1)).Nodup ∧ (es.length : Int) ≤ max limit 0 ∧ s.t.count = es.length ∧
      ∀ k, LinkedHashMap.get s.t k = Spec.Assoc.find k es := by
  have hi := inv_exec as (inv_init zk zv limit) h
  obtain ⟨a, _, h2, _, h4, h5⟩ := hi.sim
  have hr := h4 fun t => by
    cases hin : (s.pc t).inside with
    | none => rfl
    | some o => have := inside_holds hin; rw [hq t] at this; simp at this
  obtain ⟨ids, hl⟩ := hr.1.lnk
  exact ⟨a.1, hl.nodup, h2 ▸ hr.1.bound, hr.1.count, h5⟩

/-- The execution of the refutation runs to its end. -/
example : (exec 0 0 (init 1) both).isSome = true := by decide +kernel

/-- A `Get` that read the pointer before a `Clear` and loads after it finds the entry, and is explained: it comes before the `Clear`. -/
example : (exec (n := 2) 0 0 (init (K := Nat) (V := Nat) 3) [.call 0 (.put 1 10), .lock 0, .micro 0, .micro 0, .micro 0, .unlock 0, .ret 0,
    .call 1 (.get 1), .read 1, .call 0 .clear, .lock 0, .micro 0, .micro 0, .unlock 0, .load 1, .ret 1, .ret 0]).map (fun s => s.hist) =
    some [.inv 0 (.put 1 10), .res 0 .unit, .inv 1 (.get 1), .inv 2 .clear, .res 1 (.val 10 true), .res 2 .unit] := by decide +kernel

/-- Two goroutines put different keys at the same time, no `Get`. -/
example : (exec (n := 2) 0 0 (init (K := Nat) (V := Nat) 1) [.call 0 (.put 1 10), .call 1 (.put 2 20), .lock 1, .micro 1, .micro 1, .micro 1, .unlock 1,
    .lock 0, .micro 0, .micro 0, .micro 0, .micro 0, .unlock 0, .ret 0, .ret 1]).map (fun s => (s.hist, s.t.count)) =
    some ([.inv 0 (.put 1 10), .inv 1 (.put 2 20), .res 0 .unit, .res 1 .unit], 1) := by decide +kernel

end Gofer.Props.LinkedConc
