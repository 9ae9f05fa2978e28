import Verif.Proof.Map

/-! # `Map`, `MapL`: properties C10, C11 -/
namespace Gofer.Props.Map
open Gofer.Map Gofer.Spec.Map
variable {K V : Type} [DecidableEq K] [GoValue V]

/-- C10. Every history of calls on a new `Map` returns what a partial function updated point by point
returns. -/
theorem C10_map_refines (os : List (Op K V)) :
    (Map.new : Gofer.Map.Map K V).run os = Spec.Map.run GoValue.zero GoValue.isNil (fun _ => none) os :=
  (map_run (t := Map.new) (s := fun _ => none) (fun _ => rfl) os).1

/-- C10. The same for `MapL`. -/
theorem C10_mapL_refines (os : List (Op K V)) :
    (MapL.new : MapL K V).run os = Spec.Map.run GoValue.zero GoValue.isNil (fun _ => none) os := by
  rw [(mapL_run MapL.new os rfl).1]
  exact C10_map_refines os

/-- C10. A `Put` of a key whose stored value is the nil interface returns `false` although a previous
value existed (the returned previous value, nil, is right). -/
theorem C10_put_over_nil_reports_absent :
    (Map.new : Gofer.Map.Map Nat (Option Nat)).run [.put 1 none, .has 1, .put 1 (some 5)] =
      [.val none false, .ok true, .val none false] := by decide +kernel

/-- C10. `Range` in any visiting order, with any callback: the calls made are a prefix of the order;
all earlier calls returned true; if it is a proper prefix the last call returned false; and if the
callback never returns false each present key is visited exactly once with its value. -/
theorem C10_range_prefix (t : Gofer.Map.Map K V) (order : List (K × Option V)) (h : order.Perm t.m.entries)
    (f : List (K × V) → K → V → Bool) :
    ∃ n ≤ order.length, (rangeCalls f order []) <+: (order.map fun p => (p.1, (t.get p.1).1)) ∧
      (rangeCalls f order []).length = n ∧
      (∀ i k v, (rangeCalls f order [])[i]? = some (k, v) → i + 1 < n →
        f ((rangeCalls f order []).take i) k v = true) ∧
      (n < order.length → ∃ k v, (rangeCalls f order [])[n - 1]? = some (k, v) ∧
        f ((rangeCalls f order []).take (n - 1)) k v = false) := by
  obtain ⟨n, hn, h1, h2, h3⟩ := rangeCalls_prefix f order []
  have hshown : ∀ p ∈ order, shown p = (p.1, (t.get p.1).1) := by
    intro p hp
    obtain ⟨k, x⟩ := p
    have := (AMap.mem_entries_iff t.m k x).1 (h.mem_iff.1 hp)
    cases x <;> simp [shown, Map.get, this]
  have hmap : order.map shown = order.map fun p => (p.1, (t.get p.1).1) := List.map_congr_left hshown
  simp only [List.nil_append] at *
  have hlen : ((order.take n).map shown).length = n := by simp [hn]
  have htake : ∀ i ≤ n, ((order.take n).map shown).take i = (order.take i).map shown := by
    intro i hi
    rw [← List.map_take, List.take_take, Nat.min_eq_left hi]
  refine ⟨n, hn, ?_, by rw [h1, hlen], ?_, ?_⟩
  · rw [h1, ← hmap, List.map_take]; exact List.take_prefix _ _
  · intro i k v hi hin
    rw [h1] at hi ⊢
    have hi' : i < order.length := by omega
    have hget : ((order.take n).map shown)[i]? = some (shown order[i]) := by
      rw [List.getElem?_map, List.getElem?_take_of_lt (by omega), List.getElem?_eq_getElem hi']; rfl
    rw [hget] at hi
    have := h2 i hi' hin
    simp only [Option.some.injEq] at hi
    rw [hi] at this
    rw [htake i (by omega)]; exact this
  · intro hlt
    obtain ⟨h4, h5, h6⟩ := h3 hlt
    refine ⟨(shown order[n-1]).1, (shown order[n-1]).2, ?_, ?_⟩
    · rw [h1, List.getElem?_map, List.getElem?_take_of_lt (by omega), List.getElem?_eq_getElem h5]; rfl
    · rw [h1, htake _ (by omega)]; exact h6

/-- C10. A full `Range` shows each present key exactly once, with the value `Get` returns. -/
theorem C10_range_full (t : Gofer.Map.Map K V) (order : List (K × Option V)) (h : order.Perm t.m.entries) :
    ((rangeCalls (fun _ _ _ => true) order []).map Prod.fst).Nodup ∧
    ∀ k v, (k, v) ∈ rangeCalls (fun _ _ _ => true) order [] ↔ (t.has k = true ∧ t.get k = (v, true)) := by
  obtain ⟨n, hn, h1, h2, h3, h4⟩ := C10_range_prefix t order h (fun _ _ _ => true)
  have hnn : n = order.length := by
    by_contra hc
    obtain ⟨_, _, _, h5⟩ := h4 (by omega)
    simp at h5
  have he : rangeCalls (fun _ _ _ => true) order [] = order.map fun p => (p.1, (t.get p.1).1) :=
    h1.eq_of_length (by rw [h2, hnn]; simp)
  rw [he]
  constructor
  · rw [List.map_map]
    have : (order.map Prod.fst).Nodup := (h.map Prod.fst).nodup_iff.2 t.m.nodup
    exact this
  · intro k v
    simp only [List.mem_map, Prod.mk.injEq]
    constructor
    · rintro ⟨⟨k', x⟩, hp, rfl, rfl⟩
      have := (AMap.mem_entries_iff t.m k' x).1 (h.mem_iff.1 hp)
      cases x <;> simp [Map.has, Map.get, this]
    · rintro ⟨h5, h6⟩
      obtain ⟨x, hx⟩ := Option.isSome_iff_exists.1 h5
      exact ⟨(k, x), h.mem_iff.2 ((AMap.mem_entries_iff t.m k x).2 hx), rfl, by rw [h6]⟩

/-- Non-vacuity: a stopped Range. -/
example : rangeCalls (fun _ k _ => k ≠ 2) [(1, some 10), (2, some 20), (3, some 30)] ([] : List (Nat × Nat)) =
    [(1, 10), (2, 20)] := by decide +kernel

/-- C11. Sequentially, `Len()` is the number of distinct present keys after any history. -/
theorem C11_mapL_len_sequential (os : List (Op K V)) :
    ∃ keys : List K, keys.Nodup ∧ (∀ k, k ∈ keys ↔ ((MapL.new : MapL K V).final os).has k = true) ∧
      ((MapL.new : MapL K V).final os).len = keys.length := by
  have h := (mapL_run (MapL.new : MapL K V) os rfl).2.2
  refine ⟨((MapL.new : MapL K V).final os).m.entries.map Prod.fst, (AMap.nodup _), ?_, ?_⟩
  · intro k; rw [← AMap.load_isSome_iff]; rfl
  · rw [h]; simp [AMap.size]

/-- C11. In every interleaving of `Put`/`Del` calls by any number of goroutines, when no call is in
flight `Len()` is the number of present keys. -/
theorem C11_mapL_len_quiescent {n : Nat} (sched : List (Act n K V)) (s : Conc n K V)
    (h : Conc.init.exec sched = some s) (hq : ∀ g, s.pend g = none) :
    ∃ keys : List K, keys.Nodup ∧ (∀ k, k ∈ keys ↔ (s.m.load k).isSome = true) ∧ s.len = keys.length := by
  have hi : CInv s := cinv_exec sched cinv_init h
  refine ⟨s.m.entries.map Prod.fst, s.m.nodup, ?_, ?_⟩
  · intro k; rw [← AMap.load_isSome_iff]
  · unfold CInv at hi
    simp only [hq, delta, Finset.sum_const_zero, add_zero] at hi
    rw [hi]; simp [AMap.size]

/-- Non-vacuity: two goroutines racing on one key, all calls finished. -/
example : ((Conc.init : Conc 2 Nat Nat).exec [.putSwap 0 7 1, .putSwap 1 7 2, .add 0, .delLoad 0 7,
    .putSwap 1 8 3, .add 1, .add 0]).map (fun s => (s.len, s.m.entries, s.pend 0, s.pend 1)) =
    some (1, [(8, some 3)], none, none) := by decide +kernel

/-- C11. While calls are in flight `Len()` can be negative. -/
theorem C11_mapL_len_can_be_negative :
    ∃ (sched : List (Act 2 Nat Nat)) (s : Conc 2 Nat Nat), Conc.init.exec sched = some s ∧ s.len = -1 := by
  refine ⟨[.putSwap 0 7 1, .delLoad 1 7, .add 1], _, rfl, ?_⟩
  decide +kernel

/-- C11. The error of `Len()` is at most the number of calls in flight. -/
theorem C11_mapL_len_error {n : Nat} (sched : List (Act n K V)) (s : Conc n K V)
    (h : Conc.init.exec sched = some s) :
    (s.len - s.m.size).natAbs ≤ (Finset.univ.filter fun g => s.pend g ≠ none).card := by
  have hi : CInv s := cinv_exec sched cinv_init h
  have hd : DInv s := dinv_exec sched (by intro g d h; simp [Conc.init] at h) h
  unfold CInv at hi
  have h1 : s.len - s.m.size = - ∑ i, delta (s.pend i) := by omega
  have h2 : (∑ i, delta (s.pend i)).natAbs ≤ ∑ i, (delta (s.pend i)).natAbs := by
    exact Int.natAbs_sum_le _ _
  have h3 : ∑ i, (delta (s.pend i)).natAbs = ∑ i, if s.pend i ≠ none then 1 else 0 := by
    apply Finset.sum_congr rfl
    intro i _
    cases hp : s.pend i with
    | none => simp [delta]
    | some d => rcases hd i d hp with rfl | rfl <;> simp [delta]
  rw [h1, Int.natAbs_neg, Finset.card_filter]
  omega

end Gofer.Props.Map
