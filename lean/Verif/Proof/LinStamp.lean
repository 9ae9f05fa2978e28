import Verif.Spec.Linear
import Mathlib.Data.List.Sort
/-! # Orders of calls by time stamps, in which calls that change nothing can be put later -/
namespace Gofer.LinStamp

variable {S O R : Type} (step : S → O → S × R)

def runs : S → List O → List R
  | _, [] => []
  | s, o :: os => (step s o).2 :: runs (step s o).1 os

def fins (s : S) (os : List O) : S := os.foldl (fun s o => (step s o).1) s

theorem runs_append (s : S) (a b : List O) : runs step s (a ++ b) = runs step s a ++ runs step (fins step s a) b := by
  induction a generalizing s with
  | nil => rfl
  | cons o a ih => simp [runs, fins, ih]

theorem fins_append (s : S) (a b : List O) : fins step s (a ++ b) = fins step (fins step s a) b := by simp [fins]

/-- Stamp, number, operation, result. -/
abbrev El (O R : Type) := Nat × Nat × O × R

abbrev El.stamp (x : El O R) : Nat := x.1
abbrev El.num (x : El O R) : Nat := x.2.1
abbrev El.op (x : El O R) : O := x.2.2.1
abbrev El.ans (x : El O R) : R := x.2.2.2

structure LOk (s0 : S) (L : List (El O R)) (st : Nat → S) (N : Nat) : Prop where
  sorted : L.Pairwise fun a b => a.stamp ≤ b.stamp
  bound : ∀ x ∈ L, x.stamp ≤ N
  state : ∀ p ≤ N, fins step s0 ((L.filter fun x => x.stamp ≤ p).map El.op) = st p
  ok : L.map El.ans = runs step s0 (L.map El.op)
  ids : (L.map El.num).Nodup

def ins (p : Nat) (x : El O R) (L : List (El O R)) : List (El O R) := L.filter (fun y => y.stamp ≤ p) ++ x :: L.filter fun y => ¬ y.stamp ≤ p

theorem split {L : List (El O R)} (h : L.Pairwise fun a b => a.stamp ≤ b.stamp) (p : Nat) :
    L = L.filter (fun y => y.stamp ≤ p) ++ L.filter fun y => ¬ y.stamp ≤ p := by
  induction L with
  | nil => rfl
  | cons a L ih =>
    rw [List.pairwise_cons] at h
    by_cases ha : a.stamp ≤ p
    · simp only [List.filter_cons, ha, decide_true, if_true, not_true, decide_false, Bool.false_eq_true, if_false, List.cons_append]
      rw [← ih h.2]
    · have : L.filter (fun y => y.stamp ≤ p) = [] := by
        rw [List.filter_eq_nil_iff]
        intro b hb
        have := h.1 b hb
        simp; omega
      have h2 : L.filter (fun y => ¬ y.stamp ≤ p) = L := by
        rw [List.filter_eq_self]
        intro b hb
        have := h.1 b hb
        simp; omega
      simp only [List.filter_cons, ha, decide_false, Bool.false_eq_true, if_false, not_false_eq_true, decide_true, if_true, this, List.nil_append]
      rw [h2]

theorem mem_ins {p : Nat} {x y : El O R} {L : List (El O R)} : y ∈ ins p x L ↔ y = x ∨ y ∈ L := by
  simp only [ins, List.mem_append, List.mem_cons, List.mem_filter, decide_eq_true_eq]
  constructor
  · rintro (h | h | h)
    · exact .inr h.1
    · exact .inl h
    · exact .inr h.1
  · rintro (h | h)
    · exact .inr (.inl h)
    · by_cases hy : y.stamp ≤ p
      · exact .inl ⟨h, hy⟩
      · exact .inr (.inr ⟨h, hy⟩)

theorem ins_ok {s0 : S} {L : List (El O R)} {st : Nat → S} {N p : Nat} (h : LOk step s0 L st N) (hp : p ≤ N) {i : Nat} {op : O} {r : R} (hr : step (st p) op = (st p, r))
    (hi : i ∉ L.map El.num) : LOk step s0 (ins p (p, i, op, r) L) st N := by
  have e := split h.sorted p
  generalize hA : L.filter (fun y => y.stamp ≤ p) = A at e
  generalize hB : L.filter (fun y => ¬ y.stamp ≤ p) = B at e
  have hAs : ∀ a ∈ A, a.stamp ≤ p := fun a ha => by rw [← hA] at ha; simpa using (List.mem_filter.1 ha).2
  have hBs : ∀ b ∈ B, p < b.stamp := fun b hb => by rw [← hB] at hb; simpa using (List.mem_filter.1 hb).2
  have hst : fins step s0 (A.map El.op) = st p := by rw [← hA]; exact h.state p hp
  have hins : ins p (p, i, op, r) L = A ++ (p, i, op, r) :: B := by simp only [ins, hA, hB]
  have hs := h.sorted
  rw [e, List.pairwise_append] at hs
  refine ⟨?_, ?_, ?_, ?_, ?_⟩
  · rw [hins, List.pairwise_append, List.pairwise_cons]
    refine ⟨hs.1, ⟨fun b hb => (hBs b hb).le, hs.2.1⟩, fun a ha b hb => ?_⟩
    rcases List.mem_cons.1 hb with rfl | hb
    · exact hAs a ha
    · exact hs.2.2 a ha b hb
  · intro x hx
    rcases mem_ins.1 hx with rfl | hx
    · exact hp
    · exact h.bound x hx
  · intro q hq
    have hq' := h.state q hq
    rw [e] at hq'
    rw [hins]
    simp only [List.filter_append, List.map_append, List.filter_cons, fins_append] at hq' ⊢
    by_cases hpq : p ≤ q
    · have : A.filter (fun x => x.stamp ≤ q) = A := by
        rw [List.filter_eq_self]; intro a ha; have := hAs a ha; simp; omega
      rw [this, hst] at hq' ⊢
      simp only [hpq, decide_true, if_true, List.map_cons]
      rw [← hq']
      simp [fins, hr]
    · simp only [hpq, decide_false, Bool.false_eq_true, if_false]
      exact hq'
  · have := h.ok
    rw [e] at this
    rw [hins]
    simp only [List.map_append, List.map_cons, runs_append, hst] at this ⊢
    have hl : (A.map El.ans).length = (runs step s0 (A.map El.op)).length := by
      have : ∀ (s : S) (os : List O), (runs step s os).length = os.length := by
        intro s os
        induction os generalizing s with
        | nil => rfl
        | cons o os ih => simp [runs, ih]
      simp [this]
    obtain ⟨h1, h2⟩ := List.append_inj this hl
    rw [h1, h2]
    simp only [runs]
    rw [hr]
  · have := h.ids
    rw [e, List.map_append] at this
    rw [hins, List.map_append, List.map_cons]
    rw [e, List.map_append] at hi
    exact (List.perm_middle.nodup_iff).2 (List.nodup_cons.2 ⟨hi, this⟩)

theorem filter_all {L : List (El O R)} {p : Nat} (h : ∀ x ∈ L, x.stamp ≤ p) : L.filter (fun x => x.stamp ≤ p) = L := by
  rw [List.filter_eq_self]; intro a ha; simpa using h a ha

theorem push_ok {s0 : S} {L : List (El O R)} {st st' : Nat → S} {N : Nat} (h : LOk step s0 L st N) {i : Nat} {op : O} {r : R}
    (hs : ∀ p ≤ N, st' p = st p) (hr : step (st N) op = (st' (N + 1), r)) (hi : i ∉ L.map El.num) : LOk step s0 (L ++ [(N + 1, i, op, r)]) st' (N + 1) := by
  refine ⟨?_, ?_, ?_, ?_, ?_⟩
  · rw [List.pairwise_append]
    exact ⟨h.sorted, by simp, fun a ha b hb => by have := h.bound a ha; simp at hb; subst hb; show a.stamp ≤ N + 1; omega⟩
  · intro x hx
    rcases List.mem_append.1 hx with hx | hx
    · exact Nat.le_succ_of_le (h.bound x hx)
    · simp at hx; subst hx; simp
  · intro p hp
    by_cases hN : p ≤ N
    · have := h.state p hN
      rw [hs p hN, ← this]
      simp [List.filter_append, show ¬ N + 1 ≤ p by omega]
    · have hp' : p = N + 1 := by omega
      subst hp'
      have h1 := h.state N le_rfl
      rw [filter_all h.bound] at h1
      have h2 : ∀ x ∈ L, x.stamp ≤ N + 1 := fun x hx => Nat.le_succ_of_le (h.bound x hx)
      rw [List.filter_append, filter_all h2, List.map_append, fins_append, h1]
      simp [fins, hr]
  · have h1 := h.state N le_rfl
    rw [filter_all h.bound] at h1
    rw [List.map_append, List.map_append, runs_append, h1, h.ok]
    simp [runs, hr]
  · rw [List.map_append]
    exact (List.nodup_append.2 ⟨h.ids, by simp, fun a ha b hb => by simp at hb; subst hb; rintro rfl; exact hi ha⟩)

theorem skip_ok {s0 : S} {L : List (El O R)} {st st' : Nat → S} {N : Nat} (h : LOk step s0 L st N) (hs : ∀ p ≤ N, st' p = st p) (he : st' (N + 1) = st N) :
    LOk step s0 L st' (N + 1) := by
  refine ⟨h.sorted, fun x hx => Nat.le_succ_of_le (h.bound x hx), fun p hp => ?_, h.ok, h.ids⟩
  by_cases hN : p ≤ N
  · rw [hs p hN]; exact h.state p hN
  · have hp' : p = N + 1 := by omega
    subst hp'
    have h1 := h.state N le_rfl
    rw [filter_all h.bound] at h1
    rw [he, filter_all fun x hx => Nat.le_succ_of_le (h.bound x hx), h1]

/-- Positions in a list of lists. -/
theorem flatMap_order {A B : Type} {f : A → List B} {l : List A} {a b : Nat} {x y : B} (hx : (l.flatMap f)[a]? = some x) (hy : (l.flatMap f)[b]? = some y) (h : a < b) :
    ∃ (a' b' : Nat) (u w : A), a' ≤ b' ∧ l[a']? = some u ∧ l[b']? = some w ∧ x ∈ f u ∧ y ∈ f w := by
  induction l generalizing a b with
  | nil => simp at hx
  | cons c l ih =>
    rw [List.flatMap_cons] at hx hy
    by_cases ha : a < (f c).length
    · rw [List.getElem?_append_left ha] at hx
      by_cases hb : b < (f c).length
      · rw [List.getElem?_append_left hb] at hy
        exact ⟨0, 0, c, c, le_rfl, rfl, rfl, List.mem_of_getElem? hx, List.mem_of_getElem? hy⟩
      · rw [List.getElem?_append_right (by omega)] at hy
        obtain ⟨w, hw, hyw⟩ := List.mem_flatMap.1 (List.mem_of_getElem? hy)
        obtain ⟨i, hi⟩ := List.getElem?_of_mem hw
        exact ⟨0, i + 1, c, w, by omega, rfl, by simpa using hi, List.mem_of_getElem? hx, hyw⟩
    · rw [List.getElem?_append_right (by omega)] at hx hy
      obtain ⟨a', b', u, w, h1, h2, h3, h4, h5⟩ := ih hx hy (by omega)
      exact ⟨a' + 1, b' + 1, u, w, by omega, by simpa using h2, by simpa using h3, h4, h5⟩

open Gofer.Spec.Linear in
/-- From the order to linearizability: `T` are the events with their times, `f` what is seen of them. -/
theorem linear_of {s0 : S} {L : List (El O R)} {st : Nat → S} {N : Nat} (h : LOk step s0 L st N) {E : Type} {T : List E} {f : E → List (Ev O R)}
    (h1 : ∀ x ∈ L, ∃ b < x.stamp, ∃ u, T[b]? = some u ∧ Ev.inv x.num x.op ∈ f u)
    (h2 : ∀ (a : Nat) (u : E), T[a]? = some u → ∀ i r, Ev.res i r ∈ f u → ∃ q op, (q, i, op, r) ∈ L ∧ q ≤ a)
    (h3 : ∀ (a b : Nat) (u w : E), T[a]? = some u → T[b]? = some w → ∀ i op op', Ev.inv i op ∈ f u → Ev.inv i op' ∈ f w → a = b)
    (h4 : ∀ (a : Nat) (u : E), T[a]? = some u → ∀ i r j op, Ev.res i r ∈ f u → Ev.inv j op ∉ f u) :
    Linearizable (runs step s0) (T.flatMap f) := by
  refine ⟨L.map fun x => (x.num, x.op, x.ans), ?_, ?_, ?_, ?_, ?_⟩
  · rw [List.map_map]; exact h.ids
  · intro y hy
    obtain ⟨x, hx, rfl⟩ := List.mem_map.1 hy
    obtain ⟨b, _, u, hu, hi⟩ := h1 x hx
    exact List.mem_flatMap.2 ⟨u, List.mem_of_getElem? hu, hi⟩
  · intro i r hr
    obtain ⟨u, hu, hur⟩ := List.mem_flatMap.1 hr
    obtain ⟨a, ha⟩ := List.getElem?_of_mem hu
    obtain ⟨q, op, hq, _⟩ := h2 a u ha i r hur
    exact ⟨op, List.mem_map.2 ⟨_, hq, rfl⟩⟩
  · rw [List.map_map, List.map_map]; exact h.ok
  · intro a b i r j op ha hb hab x y p q hx hy hp hq
    obtain ⟨a', b', u, w, hab', hu, hw, hru, hiw⟩ := flatMap_order ha hb hab
    have hne : a' ≠ b' := by
      rintro rfl
      rw [hu] at hw; cases hw
      exact h4 a' u hu i r j op hru hiw
    rw [List.getElem?_map, Option.map_eq_some_iff] at hx hy
    obtain ⟨p', hp', rfl⟩ := hx
    obtain ⟨q', hq', rfl⟩ := hy
    simp only at hp hq
    obtain ⟨qi, opi, hqi, hqa⟩ := h2 a' u hu i r hru
    have hpi : p' = (qi, i, opi, r) := by
      have := h.ids
      exact List.inj_on_of_nodup_map this (List.mem_of_getElem? hp') hqi hp
    obtain ⟨c, hc, w', hw', hi'⟩ := h1 q' (List.mem_of_getElem? hq')
    have : b' = c := h3 b' c w w' hw hw' j op q'.op hiw (hq ▸ hi')
    subst this
    have hlt : p'.stamp < q'.stamp := by
      rw [hpi]
      show qi < q'.stamp
      omega
    by_contra hxy
    rcases Nat.lt_or_ge y x with hyx | hyx
    · have := h.sorted
      rw [List.pairwise_iff_getElem] at this
      obtain ⟨lx, ex⟩ := List.getElem?_eq_some_iff.1 hp'
      obtain ⟨ly, ey⟩ := List.getElem?_eq_some_iff.1 hq'
      have := this y x ly lx hyx
      rw [ex, ey] at this
      omega
    · have : x = y := by omega
      subst this
      rw [hp'] at hq'
      cases hq'
      omega

end Gofer.LinStamp
