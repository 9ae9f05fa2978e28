import Verif.Proof.Await
import Verif.Proof.FastAwait
/-! Lemmas for `Verif/Props/AwaitLeak.lean`: entries of the table belong to running `Wait`s. -/
namespace Gofer.AwaitLeak
open Gofer.Await (Id upd)

variable {V : Type}

theorem get_set {A : Type} {l : List A} {i j : Nat} {a b : A} (hi : l[i]? = some a) :
    (l.set i b)[j]? = if i = j then some b else l[j]? := by
  rw [List.getElem?_set]
  obtain ⟨h, _⟩ := List.getElem?_eq_some_iff.1 hi
  by_cases e : i = j
  · subst e; simp [h]
  · simp [e]

namespace A
open Gofer.Await

/-- A `Wait` that has made sure of its channel and has not yet returned. -/
def past : Pc → Bool
  | .wUnlock _ | .select _ | .wClose _ | .wDel _ => true
  | _ => false

def Held (s : St V) : Prop := ∀ x ch, s.m x = some ch → ∃ (i : Nat) (c : Call V), s.log[i]? = some c ∧ c.idx = x ∧ past c.pc = true

theorem held_goto {s : St V} {m : Id → Option Nat} {lk : Nat → Bool} {chans : List Chan} (h : Held s) {i : Nat} {c : Call V} (hi : s.log[i]? = some c) {pc : Pc}
    (hm : ∀ x ch, m x = some ch → (s.m x = some ch ∧ (x = c.idx → past c.pc = true → past pc = true)) ∨ (x = c.idx ∧ past pc = true)) :
    Held (St.goto { s with m := m, lk := lk, chans := chans } i c pc) := by
  intro x ch hx
  have e : ∀ j, (St.goto { s with m := m, lk := lk, chans := chans } i c pc).log[j]? = if i = j then some { c with pc := pc } else s.log[j]? := fun j => get_set hi
  rcases hm x ch hx with ⟨h1, h2⟩ | ⟨h1, h2⟩
  · obtain ⟨j, d, hj, hd, hp⟩ := h x ch h1
    by_cases hij : i = j
    · subst hij
      rw [hi] at hj
      cases hj
      exact ⟨i, { c with pc := pc }, by rw [e, if_pos rfl], hd, h2 hd.symm hp⟩
    · exact ⟨j, d, by rw [e, if_neg hij]; exact hj, hd, hp⟩
  · exact ⟨i, { c with pc := pc }, by rw [e, if_pos rfl], h1.symm, h2⟩

theorem held_step (ix : Id → Nat) {s t : St V} (h : Held s) {i : Nat} {c : Call V} (hi : s.log[i]? = some c) (ht : step ix s i c = some t) : Held t := by
  have keep : ∀ {pc : Pc}, (past c.pc = true → past pc = true) → ∀ x ch, s.m x = some ch →
      (s.m x = some ch ∧ (x = c.idx → past c.pc = true → past pc = true)) ∨ (x = c.idx ∧ past pc = true) := fun hp x ch hx => Or.inl ⟨hx, fun _ => hp⟩
  have gone : ∀ {pc : Pc} x ch, upd s.m c.idx none x = some ch →
      (s.m x = some ch ∧ (x = c.idx → past c.pc = true → past pc = true)) ∨ (x = c.idx ∧ past pc = true) := by
    intro pc x ch hx
    unfold upd at hx
    split at hx
    · cases hx
    · exact Or.inl ⟨hx, fun he => absurd he ‹_›⟩
  cases hpc : c.pc <;> simp only [step, hpc] at ht
  case wEnter => split at ht <;> cases ht; exact held_goto h hi (keep (by rw [hpc]; simp [past]))
  case wLocked => split at ht <;> cases ht <;> exact held_goto h hi (keep (by rw [hpc]; simp [past]))
  case wPut ch =>
    cases ht
    refine held_goto h hi fun x k hx => ?_
    unfold upd at hx
    split at hx
    · exact Or.inr ⟨‹_›, rfl⟩
    · exact Or.inl ⟨hx, fun he => absurd he ‹_›⟩
  case wUnlock ch => cases ht; exact held_goto h hi (keep (by simp [past]))
  case select ch =>
    split at ht
    · cases ht
    · split at ht
      · cases ht; exact held_goto h hi (keep (by simp [past]))
      · split at ht <;> cases ht; exact held_goto h hi (keep (by simp [past]))
  case wClose ch =>
    split at ht <;> cases ht
    exact held_goto h hi (keep (by simp [past]))
  case wDel r => cases ht; exact held_goto h hi gone
  case wRet r => cases ht
  case has n =>
    split at ht
    · cases ht; exact held_goto h hi (keep (by rw [hpc]; simp [past]))
    · split at ht <;> cases ht <;> exact held_goto h hi (keep (by rw [hpc]; simp [past]))
  case lock => split at ht <;> cases ht; exact held_goto h hi (keep (by rw [hpc]; simp [past]))
  case get => split at ht <;> cases ht <;> exact held_goto h hi (keep (by rw [hpc]; simp [past]))
  case del ch => cases ht; exact held_goto h hi gone
  case send ch =>
    split at ht
    · cases ht
    · split at ht
      · cases ht; exact held_goto h hi (keep (by rw [hpc]; simp [past]))
      · split at ht <;> cases ht; exact held_goto h hi (keep (by rw [hpc]; simp [past]))
  case close ch =>
    split at ht
    · cases ht
    · split at ht <;> cases ht <;> exact held_goto h hi (keep (by rw [hpc]; simp [past]))
  case unlock e => cases ht; exact held_goto h hi (keep (by rw [hpc]; simp [past]))
  case ret e => cases ht

theorem held_append {s : St V} (h : Held s) (c : Call V) : Held { s with log := s.log ++ [c] } := by
  intro x ch hx
  obtain ⟨i, d, hi, hd, hp⟩ := h x ch hx
  exact ⟨i, d, by rw [List.getElem?_append_left (List.getElem?_eq_some_iff.1 hi).1]; exact hi, hd, hp⟩

theorem held_act (ix : Id → Nat) (loops : Nat) {s t : St V} (h : Held s) {a : Act V} (ht : act ix loops s a = some t) : Held t := by
  have abort : ∀ {i ch : Nat} {c : Call V}, s.log[i]? = some c → c.pc = .select ch → Held (s.goto i c (.wClose ch)) := by
    intro i ch c hi hp
    exact held_goto (m := s.m) (lk := s.lk) (chans := s.chans) h hi fun x k hx => Or.inl ⟨hx, fun _ _ => rfl⟩
  cases a with
  | wait timed ctx idx => simp only [act] at ht; cases ht; exact held_append h _
  | put idx v => simp only [act] at ht; cases ht; exact held_append h _
  | close idx => simp only [act] at ht; cases ht; exact held_append h _
  | step i =>
    simp only [act] at ht
    obtain ⟨c, hi, hc⟩ := Option.bind_eq_some_iff.1 ht
    exact held_step ix h hi hc
  | timeout i =>
    simp only [act] at ht
    obtain ⟨c, hi, hc⟩ := Option.bind_eq_some_iff.1 ht
    split at hc <;> cases hc
    exact abort hi ‹_›
  | cancel i =>
    simp only [act] at ht
    obtain ⟨c, hi, hc⟩ := Option.bind_eq_some_iff.1 ht
    split at hc <;> cases hc
    exact abort hi ‹_›

theorem held_exec (ix : Id → Nat) (loops : Nat) (as : List (Act V)) {s t : St V} (h : Held s) (ht : exec ix loops s as = some t) : Held t := by
  induction as generalizing s with
  | nil => cases ht; exact h
  | cons a as ih =>
    obtain ⟨u, hu, hv⟩ := Option.bind_eq_some_iff.1 ht
    exact ih (held_act ix loops h hu) hv

end A

namespace F
open Gofer.FastAwait
open Gofer.Await (Chan)

/-- A `Wait` that has entered its channel and has not yet returned. -/
def past : Pc → Bool
  | .select _ | .wClose _ | .wAdd _ | .wDel _ => true
  | _ => false

def Held (s : St V) : Prop := ∀ x ch, s.m x = some ch → ∃ (i : Nat) (c : Call V), s.log[i]? = some c ∧ c.idx = x ∧ past c.pc = true

theorem held_goto {s : St V} {m : Id → Option Nat} {bf : List Id} {chans : List Chan} (h : Held s) {i : Nat} {c : Call V} (hi : s.log[i]? = some c) {pc : Pc}
    (hm : ∀ x ch, m x = some ch → (s.m x = some ch ∧ (x = c.idx → past c.pc = true → past pc = true)) ∨ (x = c.idx ∧ past pc = true)) :
    Held (St.goto { s with m := m, bf := bf, chans := chans } i c pc) := by
  intro x ch hx
  have e : ∀ j, (St.goto { s with m := m, bf := bf, chans := chans } i c pc).log[j]? = if i = j then some { c with pc := pc } else s.log[j]? := fun j => get_set hi
  rcases hm x ch hx with ⟨h1, h2⟩ | ⟨h1, h2⟩
  · obtain ⟨j, d, hj, hd, hp⟩ := h x ch h1
    by_cases hij : i = j
    · subst hij
      rw [hi] at hj
      cases hj
      exact ⟨i, { c with pc := pc }, by rw [e, if_pos rfl], hd, h2 hd.symm hp⟩
    · exact ⟨j, d, by rw [e, if_neg hij]; exact hj, hd, hp⟩
  · exact ⟨i, { c with pc := pc }, by rw [e, if_pos rfl], h1.symm, h2⟩

theorem held_step (has : List Id → Id → Bool) {s t : St V} (h : Held s) {i : Nat} {c : Call V} (hi : s.log[i]? = some c) (ht : step has s i c = some t) : Held t := by
  have keep : ∀ {pc : Pc}, (past c.pc = true → past pc = true) → ∀ x ch, s.m x = some ch →
      (s.m x = some ch ∧ (x = c.idx → past c.pc = true → past pc = true)) ∨ (x = c.idx ∧ past pc = true) := fun hp x ch hx => Or.inl ⟨hx, fun _ => hp⟩
  have gone : ∀ {pc : Pc} x ch, upd s.m c.idx none x = some ch →
      (s.m x = some ch ∧ (x = c.idx → past c.pc = true → past pc = true)) ∨ (x = c.idx ∧ past pc = true) := by
    intro pc x ch hx
    unfold upd at hx
    split at hx
    · cases hx
    · exact Or.inl ⟨hx, fun he => absurd he ‹_›⟩
  cases hpc : c.pc <;> simp only [step, hpc] at ht
  case wPut ch =>
    cases ht
    refine held_goto h hi fun x k hx => ?_
    unfold upd at hx
    split at hx
    · exact Or.inr ⟨‹_›, rfl⟩
    · exact Or.inl ⟨hx, fun he => absurd he ‹_›⟩
  case select ch =>
    split at ht
    · cases ht
    · split at ht
      · cases ht; exact held_goto h hi (keep (by simp [past]))
      · split at ht <;> cases ht; exact held_goto h hi (keep (by simp [past]))
  case wClose ch =>
    split at ht <;> cases ht
    exact held_goto h hi (keep (by simp [past]))
  case wAdd r => cases ht; exact held_goto h hi (keep (by simp [past]))
  case wDel r => cases ht; exact held_goto h hi gone
  case wRet r => cases ht
  case get n => split at ht <;> cases ht <;> exact held_goto h hi (keep (by rw [hpc]; simp [past]))
  case isDel n =>
    split at ht
    · cases ht; exact held_goto h hi (keep (by rw [hpc]; simp [past]))
    · split at ht <;> cases ht <;> exact held_goto h hi (keep (by rw [hpc]; simp [past]))
  case del ch => cases ht; exact held_goto h hi gone
  case send ch =>
    split at ht
    · cases ht
    · split at ht
      · cases ht; exact held_goto h hi (keep (by rw [hpc]; simp [past]))
      · split at ht <;> cases ht; exact held_goto h hi (keep (by rw [hpc]; simp [past]))
  case close ch p =>
    split at ht
    · cases ht
    · split at ht <;> cases ht <;> exact held_goto h hi (keep (by rw [hpc]; simp [past]))
  case ret e => cases ht

theorem held_append {s : St V} (h : Held s) (chans : List Chan) (c : Call V) : Held { s with chans := chans, log := s.log ++ [c] } := by
  intro x ch hx
  obtain ⟨i, d, hi, hd, hp⟩ := h x ch hx
  exact ⟨i, d, by rw [List.getElem?_append_left (List.getElem?_eq_some_iff.1 hi).1]; exact hi, hd, hp⟩

theorem held_act (has : List Id → Id → Bool) (loops : Nat) {s t : St V} (h : Held s) {a : Act V} (ht : act has loops s a = some t) : Held t := by
  have abort : ∀ {i ch : Nat} {c : Call V}, s.log[i]? = some c → c.pc = .select ch → Held (s.goto i c (.wClose ch)) := by
    intro i ch c hi hp
    exact held_goto (m := s.m) (bf := s.bf) (chans := s.chans) h hi fun x k hx => Or.inl ⟨hx, fun _ _ => rfl⟩
  cases a with
  | wait timed ctx idx => simp only [act] at ht; cases ht; exact held_append h _ _
  | put idx v => simp only [act] at ht; cases ht; exact held_append h _ _
  | close idx => simp only [act] at ht; cases ht; exact held_append h _ _
  | step i =>
    simp only [act] at ht
    obtain ⟨c, hi, hc⟩ := Option.bind_eq_some_iff.1 ht
    exact held_step has h hi hc
  | timeout i =>
    simp only [act] at ht
    obtain ⟨c, hi, hc⟩ := Option.bind_eq_some_iff.1 ht
    split at hc <;> cases hc
    exact abort hi ‹_›
  | cancel i =>
    simp only [act] at ht
    obtain ⟨c, hi, hc⟩ := Option.bind_eq_some_iff.1 ht
    split at hc <;> cases hc
    exact abort hi ‹_›

theorem held_exec (has : List Id → Id → Bool) (loops : Nat) (as : List (Act V)) {s t : St V} (h : Held s) (ht : exec has loops s as = some t) : Held t := by
  induction as generalizing s with
  | nil => cases ht; exact h
  | cons a as ih =>
    obtain ⟨u, hu, hv⟩ := Option.bind_eq_some_iff.1 ht
    exact ih (held_act has loops h hu) hv

end F

end Gofer.AwaitLeak
