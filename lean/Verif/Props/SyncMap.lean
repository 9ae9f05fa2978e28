import Verif.Proof.SyncMap
import Mathlib.Data.List.Permutation
/-!
# Properties C231, C232: `Map` and `MapL` over the algorithm of `sync.Map`

In C173 the operations of `sync.Map` are atomic by assumption. Here they are the steps of its algorithm.
-/
namespace Gofer.Props.SyncMap
open Gofer.SyncMap
open Gofer.Spec.Map (Op Res)
open Gofer.Spec.SyncMap (Call Out unfold points SeqOk)
open Gofer.Spec.Linear

/-- Put, Get, Has and Del of any number of goroutines, whatever Ranges go on beside them, are explained by one order that respects time, in which a partial function answers the same. -/
theorem C231_linearizable {K V : Type} [DecidableEq K] [GoValue V] (as : List (Act K V)) (s : St K V) (h : exec St.init as = some s) :
    Linearizable (Spec.Map.run GoValue.zero GoValue.isNil fun _ => none) (points s.hist) := exec_points h

/-- A call that has begun can go on, or waits for the mutex, and then whoever has it can go on. -/
theorem C231_progress {K V : Type} [DecidableEq K] [GoValue V] (as : List (Act K V)) (s : St K V) (h : exec St.init as = some s) (t : Nat) (ht : s.g t ≠ .idle) :
    ∃ t0 a, (t0 = t ∨ s.mu = some t0) ∧ (a = Act.step t0 ∨ a = .pick t0 0 true ∨ a = .ret t0) ∧ (act s a).isSome := by
  have key : ∀ t0, Can s t0 → ∃ a, (a = Act.step t0 ∨ a = .pick t0 0 true ∨ a = .ret t0) ∧ (act s a).isSome := by
    rintro t0 (hc | hc | hc)
    · exact ⟨_, .inl rfl, hc⟩
    · exact ⟨_, .inr (.inl rfl), hc⟩
    · exact ⟨_, .inr (.inr rfl), hc⟩
  rcases exec_can h ht with hc | ⟨t0, hm, hc⟩
  · obtain ⟨a, ha⟩ := key t hc
    exact ⟨t, a, .inl rfl, ha⟩
  · obtain ⟨a, ha⟩ := key t0 hc
    exact ⟨t0, a, .inr hm, ha⟩

/-- A Put that waits for the mutex another Put has. -/
example : ((exec (St.init : St Nat Nat) [.call 0 (.base (.put 1 7)), .step 0, .step 0, .call 1 (.base (.put 2 8)), .step 1]).map fun s =>
    (s.mu, (act s (.step 1)).isSome, (act s (.step 0)).isSome)) = some (some 0, false, true) := by decide +kernel

/-- What was seen. -/
def seen {O R : Type} : Ev O R → Option (Nat × R)
  | .inv _ _ => none
  | .res i r => some (i, r)

def results (as : List (Act Nat Nat)) : Option (List (Nat × Out Nat Nat)) := (exec St.init as).map fun s => s.hist.filterMap seen

def steps (t : Nat) : Nat → List (Act Nat Nat)
  | 0 => []
  | n + 1 => .step t :: steps t n

/-- A new key while there is no `dirty`, a new key while there is one. -/
def putFirst (t k v : Nat) : List (Act Nat Nat) := .call t (.base (.put k v)) :: steps t 6 ++ [.ret t]
def putNext (t k v : Nat) : List (Act Nat Nat) := .call t (.base (.put k v)) :: steps t 5 ++ [.ret t]
/-- A key in `read`. -/
def putFast (t k v : Nat) : List (Act Nat Nat) := .call t (.base (.put k v)) :: steps t 2 ++ [.ret t]

/-- A Get begins while key 1 is in `read`; the key is deleted, expunged by a Put of key 2, dropped by a Range, and put again as a new entry; the Get still holds the old entry and finds nothing. -/
example : results (putFirst 0 1 7 ++ [.call 0 .range] ++ steps 0 4 ++ [.pick 0 0 true, .step 0, .ret 0] ++
    [.call 9 (.base (.get 1)), .step 9] ++
    [.call 0 (.base (.del 1)), .step 0, .step 0, .ret 0] ++
    (.call 0 (.base (.put 2 8)) :: steps 0 3 ++ [.pick 0 0 true] ++ steps 0 3 ++ [.ret 0]) ++
    (.call 0 .range :: steps 0 4 ++ [.pick 0 0 true, .step 0, .ret 0]) ++
    (.call 0 (.base (.put 1 9)) :: steps 0 3 ++ [.pick 0 0 true] ++ steps 0 3 ++ [.ret 0]) ++
    [.step 9, .ret 9]) =
    some [(0, .base (.val 0 false)), (1, .seq [(1, 7)] true), (3, .base (.ok true)), (4, .base (.val 0 false)), (5, .seq [(2, 8)] true), (6, .base (.val 0 false)),
      (2, .base (.val 0 false))] := by decide +kernel

/-- A Put finds its entry expunged and revives it under the mutex. -/
example : results (putFirst 0 1 7 ++ [.call 0 .range] ++ steps 0 4 ++ [.pick 0 0 true, .step 0, .ret 0] ++
    [.call 0 (.base (.del 1)), .step 0, .step 0, .ret 0] ++
    (.call 0 (.base (.put 2 8)) :: steps 0 3 ++ [.pick 0 0 true] ++ steps 0 3 ++ [.ret 0]) ++
    (.call 0 (.base (.put 1 9)) :: steps 0 7 ++ [.ret 0]) ++
    [.call 0 (.base (.get 1)), .step 0, .step 0, .ret 0]) =
    some [(0, .base (.val 0 false)), (1, .seq [(1, 7)] true), (2, .base (.ok true)), (3, .base (.val 0 false)), (4, .base (.val 0 false)), (5, .base (.val 9 true))] := by decide +kernel

/-- For every key a Range answers like a Get of that key made at some moment of the call: the history in which each Range is replaced by Gets (of any keys, any number of times) that begin and
end with it, returning the value the callback was given, or nothing if the Range went through without giving it, is linearizable. -/
theorem C232_range {K V : Type} [DecidableEq K] [GoValue V] (as : List (Act K V)) (s : St K V) (h : exec St.init as = some s) (pick : Nat → List K) :
    Linearizable (Spec.Map.run GoValue.zero GoValue.isNil fun _ => none) (s.hist.flatMap (unfold GoValue.zero pick)) := exec_linear h pick

/-- No key is given twice. -/
theorem C232_once {K V : Type} [DecidableEq K] [GoValue V] (as : List (Act K V)) (s : St K V) (h : exec St.init as = some s) (i : Nat) (l : List (K × V)) (all : Bool)
    (hr : Ev.res i (.seq l all) ∈ s.hist) : (l.map Prod.fst).Nodup := exec_nodup h hr

/-- A Range shows the map as it was at one moment: all calls, Range too, are explained by one order. -/
def C232_claim : Prop := ∀ (as : List (Act Nat Nat)) (s : St Nat Nat), exec St.init as = some s → LinearizableTo (SeqOk GoValue.zero GoValue.isNil fun _ => none) s.hist

/-- Keys 1 and 2 are 0. A Range is given key 1, then another goroutine sets key 1 to 5 and after that key 2 to 6, and the Range is given key 2. -/
def torn : List (Act Nat Nat) :=
  putFirst 0 1 0 ++ putNext 0 2 0 ++ [.call 1 .range] ++ steps 1 4 ++ [.pick 1 1 true] ++ putFast 0 1 5 ++ putFast 0 2 6 ++ [.pick 1 0 true, .step 1, .ret 1]

def tornHist : List (Ev (Call Nat Nat) (Out Nat Nat)) :=
  [.inv 0 (.base (.put 1 0)), .res 0 (.base (.val 0 false)), .inv 1 (.base (.put 2 0)), .res 1 (.base (.val 0 false)), .inv 2 .range,
    .inv 3 (.base (.put 1 5)), .res 3 (.base (.val 0 true)), .inv 4 (.base (.put 2 6)), .res 4 (.base (.val 0 true)), .res 2 (.seq [(1, 0), (2, 6)] true)]

theorem torn_hist : (exec St.init torn).map (fun s => s.hist) = some tornHist := by rfl

/-- The calls of `tornHist` with their results, by number. -/
def el : Nat → Nat × Call Nat Nat × Out Nat Nat
  | 0 => (0, .base (.put 1 0), .base (.val 0 false))
  | 1 => (1, .base (.put 2 0), .base (.val 0 false))
  | 2 => (2, .range, .seq [(1, 0), (2, 6)] true)
  | 3 => (3, .base (.put 1 5), .base (.val 0 true))
  | _ => (4, .base (.put 2 6), .base (.val 0 true))

/-- Part of `SeqOk` that can be computed. -/
def seqB : Spec.Map.St Nat Nat → List (Call Nat Nat) → List (Out Nat Nat) → Bool
  | s, .base op :: cs, .base r :: rs => r = (Spec.Map.step 0 (fun _ => false) s op).2 && seqB (Spec.Map.step 0 (fun _ => false) s op).1 cs rs
  | s, .range :: cs, .seq l _ :: rs => l.all (fun p => s p.1 = some p.2) && seqB s cs rs
  | _, _, _ => true

theorem seqB_of {s : Spec.Map.St Nat Nat} {cs : List (Call Nat Nat)} {rs : List (Out Nat Nat)} (h : SeqOk GoValue.zero GoValue.isNil s cs rs) : seqB s cs rs = true := by
  induction cs generalizing s rs with
  | nil => rfl
  | cons c cs ih =>
    match c, rs, h with
    | .base op, .base r :: rs, h =>
      simp only [seqB, Bool.and_eq_true, decide_eq_true_eq]
      exact ⟨h.1, ih h.2⟩
    | .range, .seq l all :: rs, h =>
      simp only [seqB, Bool.and_eq_true, List.all_eq_true, decide_eq_true_eq]
      exact ⟨h.1, ih h.2.2⟩

theorem torn_orders : ∀ ids ∈ [0, 1, 2, 3, 4].permutations', ids.idxOf 0 < ids.idxOf 3 → ids.idxOf 3 < ids.idxOf 4 →
    seqB (fun _ => none) ((ids.map el).map fun x => x.2.1) ((ids.map el).map fun x => x.2.2) = false := by decide +kernel

theorem C232_claim_false : ¬ C232_claim := by
  intro h
  obtain ⟨s, hs, hh⟩ := Option.map_eq_some_iff.1 torn_hist
  have h := h torn s hs
  rw [hh] at h
  obtain ⟨L, h1, h2, h3, h4, h5⟩ := h
  -- every call returned, so the order has these five
  have hin : ∀ i < 5, el i ∈ L ∧ (el i).1 = i := by
    intro i hi
    have hres : ∀ i r, Ev.res i r ∈ tornHist → ∃ op, (i, op, r) ∈ L ∧ Ev.inv i op ∈ tornHist := fun i r hr => by
      obtain ⟨op, hop⟩ := h3 i r hr
      exact ⟨op, hop, h2 _ hop⟩
    match i, hi with
    | 0, _ =>
      obtain ⟨op, a, b⟩ := hres 0 (.base (.val 0 false)) (by simp [tornHist])
      simp [tornHist] at b; subst b; exact ⟨a, rfl⟩
    | 1, _ =>
      obtain ⟨op, a, b⟩ := hres 1 (.base (.val 0 false)) (by simp [tornHist])
      simp [tornHist] at b; subst b; exact ⟨a, rfl⟩
    | 2, _ =>
      obtain ⟨op, a, b⟩ := hres 2 (.seq [(1, 0), (2, 6)] true) (by simp [tornHist])
      simp [tornHist] at b; subst b; exact ⟨a, rfl⟩
    | 3, _ =>
      obtain ⟨op, a, b⟩ := hres 3 (.base (.val 0 true)) (by simp [tornHist])
      simp [tornHist] at b; subst b; exact ⟨a, rfl⟩
    | 4, _ =>
      obtain ⟨op, a, b⟩ := hres 4 (.base (.val 0 true)) (by simp [tornHist])
      simp [tornHist] at b; subst b; exact ⟨a, rfl⟩
  have hid : ∀ x ∈ L, x.1 < 5 := by
    intro x hx
    have := h2 x hx
    simp [tornHist] at this
    omega
  have hel : ∀ x ∈ L, x = el x.1 := fun x hx =>
    List.inj_on_of_nodup_map h1 hx (hin _ (hid x hx)).1 (hin _ (hid x hx)).2.symm
  have hL : L = (L.map fun x => x.1).map el := by
    rw [List.map_map]
    conv => lhs; rw [← List.map_id L]
    exact List.map_congr_left fun x hx => hel x hx
  have hperm : (L.map fun x => x.1).Perm [0, 1, 2, 3, 4] := by
    rw [List.perm_ext_iff_of_nodup h1 (by decide)]
    intro i
    constructor
    · intro hi
      obtain ⟨x, hx, rfl⟩ := List.mem_map.1 hi
      have := hid x hx
      simp; omega
    · intro hi
      have : i < 5 := by simp at hi; omega
      exact List.mem_map.2 ⟨el i, (hin i this).1, (hin i this).2⟩
  have hord : ∀ (a b i : Nat) (r : Out Nat Nat) (j : Nat) (op : Call Nat Nat), tornHist[a]? = some (.res i r) → tornHist[b]? = some (.inv j op) → a < b → i < 5 → j < 5 →
      (L.map fun x => x.1).idxOf i < (L.map fun x => x.1).idxOf j := by
    intro a b i r j op ha hb hab hi hj
    have get : ∀ i < 5, ∃ p, L[(L.map fun x => x.1).idxOf i]? = some p ∧ p.1 = i := by
      intro i hi
      have hm : i ∈ L.map fun x => x.1 := List.mem_map.2 ⟨el i, (hin i hi).1, (hin i hi).2⟩
      have hlt := List.idxOf_lt_length_iff.2 hm
      have he := List.getElem_idxOf hlt
      rw [List.getElem_map] at he
      exact ⟨_, List.getElem?_eq_getElem (by simpa using hlt), he⟩
    obtain ⟨p, hp, hp1⟩ := get i hi
    obtain ⟨q, hq, hq1⟩ := get j hj
    exact h5 a b i r j op ha hb hab _ _ p q hp hq hp1 hq1
  have key := torn_orders _ (List.mem_permutations'.2 hperm) (hord 1 5 0 _ 3 _ rfl rfl (by omega) (by omega) (by omega)) (hord 6 7 3 _ 4 _ rfl rfl (by omega) (by omega) (by omega))
  rw [← hL, seqB_of h4] at key
  cases key

end Gofer.Props.SyncMap
