import Verif.Spec.RWLock
import Mathlib.Tactic.Common
/-! # One mutex at a time: no deadlock -/
namespace Gofer.RWLock
open Gofer.Race (Act upd)

variable {M X V : Type} [DecidableEq M]

/-- The goroutine holds `h` and takes mutexes one at a time, releasing all. -/
def flat : Option (M × Bool) → List (Act M X V) → Bool
  | none, [] => true
  | some _, [] => false
  | none, .lock m :: l => flat (some (m, true)) l
  | none, .rlock m :: l => flat (some (m, false)) l
  | some _, .lock _ :: _ => false
  | some _, .rlock _ :: _ => false
  | none, .unlock _ :: _ => false
  | none, .runlock _ :: _ => false
  | some (m', w), .unlock m :: l => w && decide (m = m') && flat none l
  | some (m', w), .runlock m :: l => !w && decide (m = m') && flat none l
  | h, .rd _ _ :: l => flat h l
  | h, .wr _ _ :: l => flat h l
  | h, .aload _ _ :: l => flat h l
  | h, .armw _ _ _ :: l => flat h l
  | h, .chan _ :: l => flat h l
  | h, .go _ :: l => flat h l

structure Inv (s : Sys M X V) (H : Nat → Option (M × Bool)) : Prop where
  fl : ∀ i l, s.thr[i]? = some l → flat (H i) l = true
  out : ∀ i, s.thr[i]? = none → H i = none
  w1 : ∀ m i, s.pend m = some i → s.act m = true → H i = some (m, true)
  w2 : ∀ m i, H i = some (m, true) → s.pend m = some i ∧ s.act m = true
  ann : ∀ m i, s.pend m = some i → s.act m = false → ∃ l, s.thr[i]? = some (.lock m :: l)
  rd : ∀ m i, (s.rds m).count i = if H i = some (m, false) then 1 else 0
  ap : ∀ m, s.act m = true → s.pend m ≠ none

/-- Something that is neither locking nor unlocking. -/
def isWork : Act M X V → Bool
  | .lock _ => false
  | .unlock _ => false
  | .rlock _ => false
  | .runlock _ => false
  | _ => true

omit [DecidableEq M] in
theorem get_set {α : Type} {l : List α} {i j : Nat} {a : α} : (l.set i a)[j]? = if i = j ∧ i < l.length then some a else l[j]? := by
  rw [List.getElem?_set]
  by_cases h : i = j
  · subst h
    by_cases h2 : i < l.length <;> simp [h2]
  · simp [h]

theorem flat_work {h : Option (M × Bool)} {a : Act M X V} {l : List (Act M X V)} (ha : isWork a = true) : flat h (a :: l) = flat h l := by
  cases a <;> simp [isWork] at ha <;> rcases h with _ | ⟨m, w⟩ <;> simp [flat]

theorem step_work {s : Sys M X V} {i : Nat} {a : Act M X V} {l : List (Act M X V)} (e : s.thr[i]? = some (a :: l)) (ha : isWork a = true) :
    s.step i = some { s with thr := s.thr.set i l } := by
  unfold Sys.step
  rw [e]
  cases a <;> simp [isWork] at ha <;> rfl

theorem inv_step {s s' : Sys M X V} {H : Nat → Option (M × Bool)} {i : Nat} (I : Inv s H) (h : s.step i = some s') :
    ∃ H', Inv s' H' := by
  cases e : s.thr[i]? with
  | none => simp [Sys.step, e] at h
  | some sc =>
  cases sc with
  | nil => simp [Sys.step, e] at h
  | cons a l =>
  have hi : i < s.thr.length := by rw [List.getElem?_eq_some_iff] at e; exact e.1
  have f := I.fl i _ e
  by_cases ha : isWork a = true
  · rw [step_work e ha] at h
    cases h
    refine ⟨H, ?_, ?_, I.w1, I.w2, ?_, I.rd, I.ap⟩
    · intro j l' hj
      rw [get_set] at hj
      split at hj
      · rename_i hc; obtain ⟨rfl, _⟩ := hc; cases hj; rwa [flat_work ha] at f
      · exact I.fl j l' hj
    · intro j hj
      rw [get_set] at hj
      split at hj
      · cases hj
      · exact I.out j hj
    · intro m j hp hact
      obtain ⟨l', hl'⟩ := I.ann m j hp hact
      refine ⟨l', ?_⟩
      rw [get_set]
      split
      · rename_i hc; obtain ⟨rfl, _⟩ := hc; rw [e] at hl'; cases hl'; simp [isWork] at ha
      · exact hl'
  · cases a with
    | lock m =>
      have hH : H i = none := by
        cases hh : H i with
        | none => rfl
        | some p => rw [hh] at f; simp [flat] at f
      simp only [Sys.step, e] at h
      split at h
      · rename_i hp
        cases h
        have hact : s.act m = false := by
          by_contra hc
          exact I.ap m (by simpa using hc) hp
        refine ⟨H, I.fl, I.out, ?_, ?_, ?_, I.rd, ?_⟩
        · intro m' j hj ha'
          by_cases em : m' = m
          · subst em; simp [hact] at ha'
          · simp [upd, em] at hj; exact I.w1 m' j hj ha'
        · intro m' j hj
          obtain ⟨h1, h2⟩ := I.w2 m' j hj
          by_cases em : m' = m
          · subst em; rw [hp] at h1; cases h1
          · simp [upd, em]; exact ⟨h1, h2⟩
        · intro m' j hj ha'
          by_cases em : m' = m
          · subst em; simp [upd] at hj; subst hj; exact ⟨l, e⟩
          · simp [upd, em] at hj; exact I.ann m' j hj ha'
        · intro m' ha'
          by_cases em : m' = m
          · subst em; simp [upd]
          · simp [upd, em]; exact I.ap m' ha'
      · split at h
        · rename_i hp0 hc
          obtain ⟨hp, hact, hr⟩ := hc
          cases h
          refine ⟨upd H i (some (m, true)), ?_, ?_, ?_, ?_, ?_, ?_, ?_⟩
          · intro j l' hj
            rw [get_set] at hj
            split at hj
            · rename_i hc; obtain ⟨rfl, _⟩ := hc; cases hj
              rw [hH] at f
              simpa [upd, flat] using f
            · rename_i hc
              have : j ≠ i := fun h => hc ⟨h.symm, hi⟩
              simp [upd, this]; exact I.fl j l' hj
          · intro j hj
            rw [get_set] at hj
            split at hj
            · cases hj
            · rename_i hc
              have : j ≠ i := fun h => hc ⟨h.symm, hi⟩
              simp [upd, this]; exact I.out j hj
          · intro m' j hj ha'
            by_cases em : m' = m
            · subst em; simp only at hj; rw [hp] at hj; cases hj; simp [upd]
            · simp [upd, em] at ha'
              have h1 := I.w1 m' j hj ha'
              have : j ≠ i := fun h => by subst h; rw [hH] at h1; cases h1
              simp [upd, this]; exact h1
          · intro m' j hj
            by_cases ej : j = i
            · subst ej; simp [upd] at hj; subst hj; simp [upd, hp]
            · simp [upd, ej] at hj
              obtain ⟨h1, h2⟩ := I.w2 m' j hj
              by_cases em : m' = m
              · subst em; rw [hact] at h2; cases h2
              · simp [upd, em]; exact ⟨h1, h2⟩
          · intro m' j hj ha'
            by_cases em : m' = m
            · subst em; simp [upd] at ha'
            · simp [upd, em] at ha'
              obtain ⟨l', hl'⟩ := I.ann m' j hj ha'
              refine ⟨l', ?_⟩
              rw [get_set]
              split
              · rename_i hc; obtain ⟨rfl, _⟩ := hc; rw [e] at hl'; cases hl'; exact absurd rfl em
              · exact hl'
          · intro m' j
            rw [I.rd m' j]
            by_cases ej : j = i
            · subst ej; simp [upd, hH]
            · simp [upd, ej]
          · intro m' ha'
            by_cases em : m' = m
            · subst em; simp [hp]
            · simp [upd, em] at ha'; exact I.ap m' ha'
        · cases h
    | unlock m =>
      have hH : H i = some (m, true) := by
        cases hh : H i with
        | none => rw [hh] at f; simp [flat] at f
        | some p => rw [hh] at f; obtain ⟨m', w⟩ := p; simp [flat] at f; obtain ⟨⟨rfl, rfl⟩, _⟩ := f; rfl
      have fl : flat (none : Option (M × Bool)) l = true := by rw [hH] at f; simpa [flat] using f
      simp only [Sys.step, e] at h
      split at h
      · rename_i hc
        obtain ⟨hp, hact⟩ := hc
        cases h
        refine ⟨upd H i none, ?_, ?_, ?_, ?_, ?_, ?_, ?_⟩
        · intro j l' hj
          rw [get_set] at hj
          split at hj
          · rename_i hc; obtain ⟨rfl, _⟩ := hc; cases hj; simpa [upd] using fl
          · rename_i hc
            have : j ≠ i := fun h => hc ⟨h.symm, hi⟩
            simp [upd, this]; exact I.fl j l' hj
        · intro j hj
          rw [get_set] at hj
          split at hj
          · cases hj
          · rename_i hc
            have : j ≠ i := fun h => hc ⟨h.symm, hi⟩
            simp [upd, this]; exact I.out j hj
        · intro m' j hj ha'
          by_cases em : m' = m
          · subst em; simp [upd] at hj
          · simp [upd, em] at hj ha'
            have h1 := I.w1 m' j hj ha'
            have : j ≠ i := fun h => by subst h; rw [hH] at h1; cases h1; exact em rfl
            simp [upd, this]; exact h1
        · intro m' j hj
          by_cases ej : j = i
          · subst ej; simp [upd] at hj
          · simp [upd, ej] at hj
            obtain ⟨h1, h2⟩ := I.w2 m' j hj
            by_cases em : m' = m
            · subst em; rw [hp] at h1; cases h1; exact absurd rfl ej
            · simp [upd, em]; exact ⟨h1, h2⟩
        · intro m' j hj ha'
          by_cases em : m' = m
          · subst em; simp [upd] at hj
          · simp [upd, em] at hj ha'
            obtain ⟨l', hl'⟩ := I.ann m' j hj ha'
            refine ⟨l', ?_⟩
            rw [get_set]
            split
            · rename_i hc; obtain ⟨rfl, _⟩ := hc; rw [e] at hl'; cases hl'
            · exact hl'
        · intro m' j
          rw [I.rd m' j]
          by_cases ej : j = i
          · subst ej; simp [upd, hH]
          · simp [upd, ej]
        · intro m' ha'
          by_cases em : m' = m
          · subst em; simp [upd] at ha'
          · simp [upd, em] at ha' ⊢; exact I.ap m' ha'
      · cases h
    | rlock m =>
      have hH : H i = none := by
        cases hh : H i with
        | none => rfl
        | some p => rw [hh] at f; simp [flat] at f
      simp only [Sys.step, e] at h
      split at h
      · rename_i hp
        cases h
        refine ⟨upd H i (some (m, false)), ?_, ?_, ?_, ?_, ?_, ?_, I.ap⟩
        · intro j l' hj
          rw [get_set] at hj
          split at hj
          · rename_i hc; obtain ⟨rfl, _⟩ := hc; cases hj
            rw [hH] at f
            simpa [upd, flat] using f
          · rename_i hc
            have : j ≠ i := fun h => hc ⟨h.symm, hi⟩
            simp [upd, this]; exact I.fl j l' hj
        · intro j hj
          rw [get_set] at hj
          split at hj
          · cases hj
          · rename_i hc
            have : j ≠ i := fun h => hc ⟨h.symm, hi⟩
            simp [upd, this]; exact I.out j hj
        · intro m' j hj ha'
          have h1 := I.w1 m' j hj ha'
          have : j ≠ i := fun h => by subst h; rw [hH] at h1; cases h1
          simp [upd, this]; exact h1
        · intro m' j hj
          by_cases ej : j = i
          · subst ej; simp [upd] at hj
          · simp [upd, ej] at hj; exact I.w2 m' j hj
        · intro m' j hj ha'
          obtain ⟨l', hl'⟩ := I.ann m' j hj ha'
          refine ⟨l', ?_⟩
          rw [get_set]
          split
          · rename_i hc; obtain ⟨rfl, _⟩ := hc; rw [e] at hl'; cases hl'
          · exact hl'
        · intro m' j
          have hr := I.rd m' j
          by_cases em : m' = m
          · subst em
            by_cases ej : j = i
            · subst ej; simp [upd, hH] at hr ⊢; exact hr
            · have ej' : ¬ i = j := fun h => ej h.symm
              simp [upd, ej, List.count_cons, ej']; exact hr
          · by_cases ej : j = i
            · subst ej
              have em' : ¬ m = m' := fun h => em h.symm
              simp [upd, hH, em, em'] at hr ⊢; exact hr
            · simp [upd, ej, em]; exact hr
      · cases h
    | runlock m =>
      have hH : H i = some (m, false) := by
        cases hh : H i with
        | none => rw [hh] at f; simp [flat] at f
        | some p => rw [hh] at f; obtain ⟨m', w⟩ := p; simp [flat] at f; obtain ⟨⟨rfl, rfl⟩, _⟩ := f; rfl
      have fl : flat (none : Option (M × Bool)) l = true := by rw [hH] at f; simpa [flat] using f
      simp only [Sys.step, e] at h
      split at h
      · rename_i hin
        cases h
        refine ⟨upd H i none, ?_, ?_, ?_, ?_, ?_, ?_, I.ap⟩
        · intro j l' hj
          rw [get_set] at hj
          split at hj
          · rename_i hc; obtain ⟨rfl, _⟩ := hc; cases hj; simpa [upd] using fl
          · rename_i hc
            have : j ≠ i := fun h => hc ⟨h.symm, hi⟩
            simp [upd, this]; exact I.fl j l' hj
        · intro j hj
          rw [get_set] at hj
          split at hj
          · cases hj
          · rename_i hc
            have : j ≠ i := fun h => hc ⟨h.symm, hi⟩
            simp [upd, this]; exact I.out j hj
        · intro m' j hj ha'
          have h1 := I.w1 m' j hj ha'
          have : j ≠ i := fun h => by subst h; rw [hH] at h1; cases h1
          simp [upd, this]; exact h1
        · intro m' j hj
          by_cases ej : j = i
          · subst ej; simp [upd] at hj
          · simp [upd, ej] at hj; exact I.w2 m' j hj
        · intro m' j hj ha'
          obtain ⟨l', hl'⟩ := I.ann m' j hj ha'
          refine ⟨l', ?_⟩
          rw [get_set]
          split
          · rename_i hc; obtain ⟨rfl, _⟩ := hc; rw [e] at hl'; cases hl'
          · exact hl'
        · intro m' j
          have hr := I.rd m' j
          by_cases em : m' = m
          · subst em
            by_cases ej : j = i
            · subst ej; simp [upd, hH] at hr ⊢; omega
            · simp [upd, ej, List.count_erase_of_ne ej]; exact hr
          · by_cases ej : j = i
            · subst ej
              have : ¬ m = m' := fun h => em h.symm
              simp [upd, hH, em, this] at hr ⊢; exact hr
            · simp [upd, ej, em]; exact hr
      · cases h
    | _ => simp [isWork] at ha

end Gofer.RWLock
