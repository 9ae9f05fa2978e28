import Verif.Model.UuidBytes
/-! # Lemmas for `UUID.Bytes` -/
namespace Gofer.UuidBytes
open Gofer.Uuid

/-- The slice an operation may write through. -/
def through : Op → Option Nat
  | .write k _ _ => some k
  | .append k _ _ => some k
  | _ => none

theorem step_slices (s : St) (op : Op) (k : Nat) (sl : Slice) (h : s.slices[k]? = some sl) : (step s op).slices[k]? = some sl := by
  have hk : k < s.slices.length := (List.getElem?_eq_some_iff.mp h).1
  unfold step
  split
  · split <;> exact h
  · split
    · split
      · simp only [List.getElem?_append_left hk, h]
      · exact h
    · exact h
  · split
    · split
      · simp only [List.getElem?_append_left hk, h]
      · exact h
    · exact h
  · split
    · split <;> exact h
    · exact h
  · split
    · split <;> simp only [List.getElem?_append_left hk, h]
    · exact h

theorem run_slices (ops : List Op) (s : St) (k : Nat) (sl : Slice) (h : s.slices[k]? = some sl) : (run s ops).slices[k]? = some sl := by
  induction ops generalizing s with
  | nil => exact h
  | cons op t ih => exact ih (step s op) (step_slices s op k sl h)

theorem step_own (s : St) (op : Op) (p : Nat) (a : Bytes) (h : s.arrays[p]? = some a)
    (ho : ∀ k, through op = some k → ∀ sl, s.slices[k]? = some sl → sl.arr ≠ p) : (step s op).arrays[p]? = some a := by
  have hp : p < s.arrays.length := (List.getElem?_eq_some_iff.mp h).1
  unfold step
  split
  · split
    · simp only [List.getElem?_append_left hp, h]
    · exact h
  · split
    · split <;> exact h
    · exact h
  · split
    · split <;> exact h
    · exact h
  · split
    · rename_i sl hs
      have := ho _ rfl sl hs
      split
      · simp only [List.getElem?_modify, if_neg this, h]
        rfl
      · exact h
    · exact h
  · split
    · rename_i sl hs
      have := ho _ rfl sl hs
      split
      · simp only [List.getElem?_modify, if_neg this, h]
        rfl
      · simp only [List.getElem?_append_left hp, h]
    · exact h

theorem run_own (ops : List Op) (s : St) (p : Nat) (a : Bytes) (h : s.arrays[p]? = some a)
    (ho : ∀ op ∈ ops, ∀ k, through op = some k → ∀ sl, (run s ops).slices[k]? = some sl → sl.arr ≠ p) : (run s ops).arrays[p]? = some a := by
  induction ops generalizing s with
  | nil => exact h
  | cons op t ih =>
    refine ih (step s op) (step_own s op p a h ?_) ?_
    · intro k hk sl hs
      exact ho op (List.mem_cons_self ..) k hk sl (run_slices (op :: t) s k sl hs)
    · intro op' hop' k hk sl hs
      exact ho op' (List.mem_cons_of_mem _ hop') k hk sl hs

/-- Every slice lies in its array. -/
def Good (s : St) : Prop := ∀ sl ∈ s.slices, sl.len ≤ sl.cap ∧ ∃ a, s.arrays[sl.arr]? = some a ∧ sl.off + sl.cap ≤ a.length

theorem start_good : Good start := fun _ h => absurd h (List.not_mem_nil)

theorem writeAt_len (a : Bytes) (i : Nat) (xs : Bytes) (h : i + xs.length ≤ a.length) : (writeAt a i xs).length = a.length := by
  simp only [writeAt, List.length_append, List.length_take, List.length_drop]
  omega

theorem step_length (s : St) (op : Op) (g : Good s) (p : Nat) (a : Bytes) (h : s.arrays[p]? = some a) :
    ∃ c, (step s op).arrays[p]? = some c ∧ c.length = a.length := by
  have hp : p < s.arrays.length := (List.getElem?_eq_some_iff.mp h).1
  unfold step
  split
  · split
    · exact ⟨a, by simp only [List.getElem?_append_left hp, h], rfl⟩
    · exact ⟨a, h, rfl⟩
  · split
    · split <;> exact ⟨a, h, rfl⟩
    · exact ⟨a, h, rfl⟩
  · split
    · split <;> exact ⟨a, h, rfl⟩
    · exact ⟨a, h, rfl⟩
  · split
    · rename_i sl hs
      split
      · simp only [List.getElem?_modify, h]
        split
        · exact ⟨_, rfl, List.length_set ..⟩
        · exact ⟨a, rfl, rfl⟩
      · exact ⟨a, h, rfl⟩
    · exact ⟨a, h, rfl⟩
  · split
    · rename_i sl hs
      split
      · rename_i hc
        simp only [List.getElem?_modify, h]
        split
        · rename_i e
          obtain ⟨_, b, hb, hl⟩ := g sl (List.mem_of_getElem? hs)
          rw [e, h] at hb
          cases hb
          exact ⟨_, rfl, writeAt_len a _ _ (by omega)⟩
        · exact ⟨a, rfl, rfl⟩
      · exact ⟨a, by simp only [List.getElem?_append_left hp, h], rfl⟩
    · exact ⟨a, h, rfl⟩

theorem step_good (s : St) (op : Op) (g : Good s) : Good (step s op) := by
  -- slices there were
  have old : ∀ sl ∈ s.slices, sl.len ≤ sl.cap ∧ ∃ a, (step s op).arrays[sl.arr]? = some a ∧ sl.off + sl.cap ≤ a.length := by
    intro sl hsl
    obtain ⟨h1, a, h2, h3⟩ := g sl hsl
    obtain ⟨c, h4, h5⟩ := step_length s op g sl.arr a h2
    exact ⟨h1, c, h4, by omega⟩
  intro sl hsl
  by_cases hm : sl ∈ s.slices
  · exact old sl hm
  · cases op with
    | new b =>
      simp only [step] at hsl
      split at hsl <;> exact absurd hsl hm
    | bytes p =>
      simp only [step] at hsl ⊢
      split at hsl
      · rename_i a ha
        split at hsl
        · rename_i h16
          simp only [List.mem_append, hm, false_or, List.mem_singleton] at hsl
          subst hsl
          simp only [ha, h16, if_true]
          exact ⟨Nat.le_refl _, a, ha, by simp [bytesOf, h16]⟩
        · exact absurd hsl hm
      · exact absurd hsl hm
    | cut k i j =>
      cases hk : s.slices[k]? with
      | none => simp only [step, hk] at hsl; exact absurd hsl hm
      | some s0 =>
        simp only [step, hk] at hsl ⊢
        split at hsl
        · rename_i hc
          simp only [List.mem_append, hm, false_or, List.mem_singleton] at hsl
          subst hsl
          simp only [hc, and_self, if_true]
          obtain ⟨h1, a, h2, h3⟩ := g s0 (List.mem_of_getElem? hk)
          exact ⟨by omega, a, h2, by omega⟩
        · exact absurd hsl hm
    | write k i v =>
      cases hk : s.slices[k]? with
      | none => simp only [step, hk] at hsl; exact absurd hsl hm
      | some s0 =>
        simp only [step, hk] at hsl
        split at hsl <;> exact absurd hsl hm
    | append k xs room =>
      cases hk : s.slices[k]? with
      | none => simp only [step, hk] at hsl; exact absurd hsl hm
      | some s0 =>
        obtain ⟨h1, a, h2, h3⟩ := g s0 (List.mem_of_getElem? hk)
        by_cases hc : s0.len + xs.length ≤ s0.cap
        · obtain ⟨c, h4, h5⟩ := step_length s (.append k xs room) g s0.arr a h2
          have e : sl = ⟨s0.arr, s0.off, s0.len + xs.length, s0.cap⟩ := by
            simp only [step, hk, hc, if_true, List.mem_append, hm, false_or, List.mem_singleton] at hsl
            exact hsl
          subst e
          exact ⟨hc, c, h4, by dsimp only; omega⟩
        · simp only [step, hk, hc, if_false, List.mem_append, hm, false_or, List.mem_singleton] at hsl ⊢
          subst hsl
          refine ⟨by dsimp only; omega, _, List.getElem?_concat_length .., ?_⟩
          simp only [slice, List.getD_eq_getElem?_getD, h2, Option.getD_some, List.length_append, List.length_take, List.length_drop, List.length_replicate]
          omega

theorem run_good (ops : List Op) (s : St) (g : Good s) : Good (run s ops) := by
  induction ops generalizing s with
  | nil => exact g
  | cons op t ih => exact ih _ (step_good s op g)

theorem run_length (ops : List Op) (s : St) (g : Good s) (p : Nat) (a : Bytes) (h : s.arrays[p]? = some a) :
    ∃ c, (run s ops).arrays[p]? = some c ∧ c.length = a.length := by
  induction ops generalizing s a with
  | nil => exact ⟨a, h, rfl⟩
  | cons op t ih =>
    obtain ⟨b, h1, h2⟩ := step_length s op g p a h
    obtain ⟨c, h3, h4⟩ := ih (step s op) (step_good s op g) b h1
    exact ⟨c, h3, h4.trans h2⟩

end Gofer.UuidBytes
