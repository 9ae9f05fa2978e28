import Verif.Model.Map
import Verif.Proof.AMap
import Mathlib.Algebra.BigOperators.Fin
import Mathlib.Algebra.BigOperators.Group.Finset.Piecewise
import Mathlib.Data.Fintype.BigOperators

namespace Gofer.Map
open Gofer.Spec.Map (Op Res)
variable {K V : Type} [DecidableEq K] [GoValue V]

/-- The stored `any`s stand for the abstract map. -/
def Rel (m : AMap K (Option V)) (s : Spec.Map.St K V) : Prop := ∀ k, m.load k = (s k).map toAny

theorem toAny_eq_some {v w : V} (h : toAny v = some w) : v = w ∧ GoValue.isNil v = false := by
  unfold toAny at h
  split at h
  · simp at h
  · rename_i hn; simp at h; exact ⟨h, by simpa using hn⟩

theorem toAny_eq_none {v : V} (h : toAny v = none) : v = GoValue.zero ∧ GoValue.isNil v = true := by
  unfold toAny at h
  split at h
  · rename_i hn; exact ⟨GoValue.nil_zero v hn, hn⟩
  · simp at h

theorem rel_store {m : AMap K (Option V)} {s : Spec.Map.St K V} (h : Rel m s) (k : K) (v : V) :
    Rel (m.store k (toAny v)) (fun x => if x = k then some v else s x) := by
  intro x
  rw [AMap.load_store]
  by_cases hx : x = k <;> simp [hx, h x]

theorem rel_delete {m : AMap K (Option V)} {s : Spec.Map.St K V} (h : Rel m s) (k : K) :
    Rel (m.delete k) (fun x => if x = k then none else s x) := by
  intro x
  rw [AMap.load_delete]
  by_cases hx : x = k <;> simp [hx, h x]

theorem map_step {t : Map K V} {s : Spec.Map.St K V} (h : Rel t.m s) (o : Op K V) :
    (t.step o).2 = (Spec.Map.step GoValue.zero GoValue.isNil s o).2 ∧
    Rel (t.step o).1.m (Spec.Map.step GoValue.zero GoValue.isNil s o).1 := by
  cases o with
  | put k v =>
    have hk := h k
    have hr := rel_store h k v
    cases hs : s k with
    | none =>
      rw [hs] at hk; simp only [Option.map_none] at hk
      simp only [Map.step, Map.put, AMap.swap, hk, Spec.Map.step, hs, Option.getD_none]
      exact ⟨trivial, hr⟩
    | some old =>
      rw [hs] at hk; simp only [Option.map_some] at hk
      cases ho : toAny old with
      | none =>
        obtain ⟨h1, h2⟩ := toAny_eq_none ho
        rw [ho] at hk
        simp only [Map.step, Map.put, AMap.swap, hk, Spec.Map.step, hs, Option.getD_some]
        exact ⟨by rw [h2, h1]; rfl, hr⟩
      | some w =>
        obtain ⟨h1, h2⟩ := toAny_eq_some ho
        rw [ho] at hk
        simp only [Map.step, Map.put, AMap.swap, hk, Spec.Map.step, hs, Option.getD_some]
        exact ⟨by rw [h2, h1]; rfl, hr⟩
  | del k =>
    have hk := h k
    have hr := rel_delete h k
    simp only [Map.step, Map.del, AMap.loadAndDelete, Spec.Map.step, hk]
    exact ⟨by simp, hr⟩
  | get k =>
    have hk := h k
    refine ⟨?_, h⟩
    cases hs : s k with
    | none => simp [Map.step, Map.get, hk, Spec.Map.step, hs]
    | some old =>
      rw [hs] at hk; simp only [Option.map_some] at hk
      cases ho : toAny old with
      | none =>
        obtain ⟨h1, h2⟩ := toAny_eq_none ho
        rw [ho] at hk; simp [Map.step, Map.get, hk, Spec.Map.step, hs, h1]
      | some w =>
        obtain ⟨h1, h2⟩ := toAny_eq_some ho
        rw [ho] at hk; simp [Map.step, Map.get, hk, Spec.Map.step, hs, h1]
  | has k =>
    have hk := h k
    exact ⟨by simp [Map.step, Map.has, hk, Spec.Map.step], h⟩

theorem map_run {t : Map K V} {s : Spec.Map.St K V} (h : Rel t.m s) (os : List (Op K V)) :
    t.run os = Spec.Map.run GoValue.zero GoValue.isNil s os ∧
    Rel (t.final os).m (Spec.Map.final GoValue.zero GoValue.isNil s os) := by
  induction os generalizing t s with
  | nil => exact ⟨rfl, h⟩
  | cons o os ih =>
    obtain ⟨h1, h2⟩ := map_step h o
    obtain ⟨h3, h4⟩ := ih h2
    exact ⟨by simp only [Map.run, Spec.Map.run, h1, h3], h4⟩

/-- A `MapL` behaves as the `Map` with the same contents. -/
theorem mapL_step (t : MapL K V) (o : Op K V) :
    (t.step o).2 = (Map.step ⟨t.m⟩ o).2 ∧ (t.step o).1.m = (Map.step ⟨t.m⟩ o).1.m := by
  cases o with
  | put k v =>
    cases hl : t.m.load k with
    | none => simp [MapL.step, MapL.put, Map.step, Map.put, AMap.swap, hl]
    | some x => cases x <;> simp [MapL.step, MapL.put, Map.step, Map.put, AMap.swap, hl]
  | del k =>
    cases hl : t.m.load k <;> simp [MapL.step, MapL.del, Map.step, Map.del, AMap.loadAndDelete, hl]
  | get k => exact ⟨rfl, rfl⟩
  | has k => exact ⟨rfl, rfl⟩

theorem mapL_len (t : MapL K V) (o : Op K V) (h : t.len = t.m.size) : (t.step o).1.len = (t.step o).1.m.size := by
  cases o with
  | put k v =>
    have hs := AMap.size_store t.m k (toAny v)
    cases hl : t.m.load k with
    | none => simp [hl] at hs; simp [MapL.step, MapL.put, AMap.swap, hl, hs, h]
    | some x => cases x <;> (simp [hl] at hs; simp [MapL.step, MapL.put, AMap.swap, hl, hs, h])
  | del k =>
    have hs := AMap.size_delete t.m k
    cases hl : t.m.load k with
    | none => simp [hl] at hs; simp [MapL.step, MapL.del, AMap.loadAndDelete, hl, hs, h]
    | some x => simp [hl] at hs; simp [MapL.step, MapL.del, AMap.loadAndDelete, hl, h]; omega
  | get k => exact h
  | has k => exact h

theorem mapL_run (t : MapL K V) (os : List (Op K V)) (h : t.len = t.m.size) :
    t.run os = Map.run ⟨t.m⟩ os ∧ (t.final os).m = (Map.final ⟨t.m⟩ os).m ∧
    (t.final os).len = (t.final os).m.size := by
  induction os generalizing t with
  | nil => exact ⟨rfl, rfl, h⟩
  | cons o os ih =>
    obtain ⟨h1, h2⟩ := mapL_step t o
    obtain ⟨h3, h4, h5⟩ := ih (t.step o).1 (mapL_len t o h)
    have e : (⟨(t.step o).1.m⟩ : Map K V) = (Map.step ⟨t.m⟩ o).1 := by
      rw [h2]
    refine ⟨?_, ?_, h5⟩
    · simp only [MapL.run, Map.run, h1, h3, e]
    · simp only [MapL.final, Map.final, List.foldl_cons] at *
      rw [h4, e]

/-! ### Range -/

/-- The values passed to the callback. -/
def shown (p : K × Option V) : K × V := (p.1, p.2.getD GoValue.zero)

theorem rangeCalls_eq (f : List (K × V) → K → V → Bool) (p : K × Option V) (rest : List (K × Option V))
    (seen : List (K × V)) :
    rangeCalls f (p :: rest) seen =
      if f seen (shown p).1 (shown p).2 then rangeCalls f rest (seen ++ [shown p]) else seen ++ [shown p] := by
  obtain ⟨k, v⟩ := p
  cases v <;> rfl

theorem rangeCalls_prefix (f : List (K × V) → K → V → Bool) (l : List (K × Option V)) (seen : List (K × V)) :
    ∃ n ≤ l.length, rangeCalls f l seen = seen ++ (l.take n).map shown ∧
      (∀ i (h : i < l.length), i + 1 < n → f (seen ++ (l.take i).map shown) (shown l[i]).1 (shown l[i]).2 = true) ∧
      (n < l.length → 0 < n ∧ ∃ h : n - 1 < l.length,
        f (seen ++ (l.take (n - 1)).map shown) (shown l[n - 1]).1 (shown l[n - 1]).2 = false) := by
  induction l generalizing seen with
  | nil => exact ⟨0, by simp, by simp [rangeCalls], by simp, by simp⟩
  | cons p rest ih =>
    rw [rangeCalls_eq]
    by_cases hf : f seen (shown p).1 (shown p).2 = true
    · rw [if_pos hf]
      obtain ⟨n, hn, h1, h2, h3⟩ := ih (seen ++ [shown p])
      by_cases hn0 : n = 0 ∧ rest ≠ []
      · exfalso
        obtain ⟨rfl, hr⟩ := hn0
        have := (h3 (List.length_pos_of_ne_nil hr)).1
        omega
      refine ⟨n + 1, by simp; omega, by rw [h1]; simp, ?_, ?_⟩
      · intro i hi hin
        cases i with
        | zero => simpa using hf
        | succ i =>
          have := h2 i (by simpa using hi) (by omega)
          simpa using this
      · intro hlt
        have hlt' : n < rest.length := by simpa using hlt
        obtain ⟨h4, h5, h6⟩ := h3 hlt'
        refine ⟨by omega, by simp; omega, ?_⟩
        obtain ⟨m, rfl⟩ : ∃ m, n = m + 1 := ⟨n - 1, by omega⟩
        simpa using h6
    · rw [if_neg hf]
      refine ⟨1, by simp, by simp, by intro i _ h; omega, ?_⟩
      intro _
      refine ⟨by omega, by simp, ?_⟩
      simpa using hf

/-! ### Concurrent counter -/

/-- The delta still to be added by a goroutine. -/
def delta : Option Int → Int
  | none => 0
  | some d => d

theorem delta_none : delta none = 0 := rfl
theorem delta_some (d : Int) : delta (some d) = d := rfl

theorem sum_update {n : Nat} (p : Fin n → Option Int) (g : Fin n) (x : Option Int) :
    (∑ i, delta (if i = g then x else p i)) = (∑ i, delta (p i)) - delta (p g) + delta x := by
  have h1 : (∑ i, delta (p i)) = delta (p g) + ∑ i ∈ Finset.univ.erase g, delta (p i) :=
    (Finset.add_sum_erase _ _ (Finset.mem_univ g)).symm
  have h2 : (∑ i, delta (if i = g then x else p i)) =
      delta x + ∑ i ∈ Finset.univ.erase g, delta (p i) := by
    rw [← Finset.add_sum_erase _ _ (Finset.mem_univ g), if_pos rfl]
    congr 1
    apply Finset.sum_congr rfl
    intro i hi
    rw [if_neg (Finset.ne_of_mem_erase hi)]
  rw [h1, h2]; omega

/-- Counter plus what is still to be added equals the number of keys. -/
def CInv {n : Nat} (s : Conc n K V) : Prop := s.len + (∑ i, delta (s.pend i)) = s.m.size

theorem cinv_act {n : Nat} {s s' : Conc n K V} (a : Act n K V) (h : CInv s) (hs : s.act a = some s') : CInv s' := by
  unfold CInv at *
  cases a with
  | putSwap g k v =>
    simp only [Conc.act] at hs
    cases hp : s.pend g with
    | some d => rw [hp] at hs; simp at hs
    | none =>
      have hsz := AMap.size_store s.m k (toAny v)
      cases hl : s.m.load k with
      | none =>
        simp only [hp, AMap.swap, hl, Option.some.injEq] at hs
        subst hs
        rw [sum_update, hp, delta_none, delta_some]
        simp [hl] at hsz
        rw [hsz]; push_cast; omega
      | some x =>
        simp only [hp, AMap.swap, hl, Option.some.injEq] at hs
        subst hs
        simp [hl] at hsz
        simp only [hsz]; exact h
  | delLoad g k =>
    simp only [Conc.act] at hs
    cases hp : s.pend g with
    | some d => rw [hp] at hs; simp at hs
    | none =>
      have hsz := AMap.size_delete s.m k
      cases hl : s.m.load k with
      | none =>
        simp only [hp, AMap.loadAndDelete, hl, Option.some.injEq] at hs
        subst hs
        simp [hl] at hsz
        simp only [hsz]; exact h
      | some x =>
        simp only [hp, AMap.loadAndDelete, hl, Option.some.injEq] at hs
        subst hs
        rw [sum_update, hp, delta_none, delta_some]
        simp [hl] at hsz
        dsimp only; omega
  | add g =>
    simp only [Conc.act] at hs
    cases hp : s.pend g with
    | none => rw [hp] at hs; simp at hs
    | some d =>
      simp only [hp, Option.some.injEq] at hs
      subst hs
      rw [sum_update, hp, delta_none, delta_some]
      dsimp only; omega

theorem cinv_exec {n : Nat} {s s' : Conc n K V} (as : List (Act n K V)) (h : CInv s) (hs : s.exec as = some s') :
    CInv s' := by
  induction as generalizing s with
  | nil => simp [Conc.exec] at hs; subst hs; exact h
  | cons a as ih =>
    simp only [Conc.exec, Option.bind_eq_some_iff] at hs
    obtain ⟨s1, h1, h2⟩ := hs
    exact ih (cinv_act a h h1) h2

theorem cinv_init {n : Nat} : CInv (Conc.init : Conc n K V) := by
  simp [CInv, Conc.init, delta]

/-- Pending deltas are 1 or -1. -/
def DInv {n : Nat} (s : Conc n K V) : Prop := ∀ g d, s.pend g = some d → d = 1 ∨ d = -1

omit [DecidableEq K] [GoValue V] in
theorem dinv_upd {n : Nat} {s : Conc n K V} (h : DInv s) (g : Fin n) (x : Option Int)
    (hx : ∀ d, x = some d → d = 1 ∨ d = -1) (m : AMap K (Option V)) (l : Int) :
    DInv (⟨m, l, fun i => if i = g then x else s.pend i⟩ : Conc n K V) := by
  intro i d hd
  dsimp only at hd
  split at hd
  · exact hx d hd
  · exact h i d hd

theorem dinv_act {n : Nat} {s s' : Conc n K V} (a : Act n K V) (h : DInv s) (hs : s.act a = some s') : DInv s' := by
  cases a with
  | putSwap g k v =>
    simp only [Conc.act] at hs
    cases hp : s.pend g with
    | some d => rw [hp] at hs; simp at hs
    | none =>
      cases hl : s.m.load k with
      | none =>
        simp only [hp, AMap.swap, hl, Option.some.injEq] at hs
        subst hs
        exact dinv_upd h g _ (by simp) _ _
      | some x =>
        simp only [hp, AMap.swap, hl, Option.some.injEq] at hs
        subst hs; exact h
  | delLoad g k =>
    simp only [Conc.act] at hs
    cases hp : s.pend g with
    | some d => rw [hp] at hs; simp at hs
    | none =>
      cases hl : s.m.load k with
      | none =>
        simp only [hp, AMap.loadAndDelete, hl, Option.some.injEq] at hs
        subst hs; exact h
      | some x =>
        simp only [hp, AMap.loadAndDelete, hl, Option.some.injEq] at hs
        subst hs
        exact dinv_upd h g _ (by simp) _ _
  | add g =>
    simp only [Conc.act] at hs
    cases hp : s.pend g with
    | none => rw [hp] at hs; simp at hs
    | some d =>
      simp only [hp, Option.some.injEq] at hs
      subst hs
      exact dinv_upd h g _ (by simp) _ _

theorem dinv_exec {n : Nat} {s s' : Conc n K V} (as : List (Act n K V)) (h : DInv s) (hs : s.exec as = some s') :
    DInv s' := by
  induction as generalizing s with
  | nil => simp [Conc.exec] at hs; subst hs; exact h
  | cons a as ih =>
    simp only [Conc.exec, Option.bind_eq_some_iff] at hs
    obtain ⟨s1, h1, h2⟩ := hs
    exact ih (dinv_act a h h1) h2

end Gofer.Map
