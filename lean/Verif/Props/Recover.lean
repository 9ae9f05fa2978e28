import Verif.Model.Recover
/-! # Functions that defer `Recover` (C265) -/
namespace Gofer.Props.Recover
open Gofer.Recover

/-- **C265, first thing in a function**: after `defer util.Recover(&err)` no panic comes out, whatever the rest does: panics of its own, of functions it calls, of calls
it defers, in any nesting. -/
theorem C265_no_panic (b : Bool) (rest : Code) (err : Option Nat) : (exec (.deferRecover b rest) err).2 = none := by
  show (recoverDeferred b (exec rest err)).2 = none
  unfold recoverDeferred
  split <;> rfl

/-- **C265, the error**: if the rest panics, `err` is the text of the panic (the last one, if a deferred call panicked in its turn); else it is what the rest made it. -/
theorem C265_error (rest : Code) (err : Option Nat) : (exec (.deferRecover true rest) err).1 =
    match exec rest err with
    | (_, some v) => some v
    | (e, none) => e := by
  show (recoverDeferred true (exec rest err)).1 = _
  unfold recoverDeferred
  split <;> rename_i h <;> rw [h] <;> rfl

/-- **C265, nil**: `defer util.Recover(nil)` hides the panic: `err` stays what it was, nil too. -/
theorem C265_silent (rest : Code) (err : Option Nat) : exec (.deferRecover false rest) err = ((exec rest err).1, none) := by
  show recoverDeferred false (exec rest err) = _
  unfold recoverDeferred
  split <;> rename_i h <;> rw [h] <;> rfl

/-- **C265, the claim**: code that lets no panic out still lets none out if it goes on with `defer util.Recover(&err)` and anything after. -/
def C265_claim : Prop := ∀ (pre rest : Code) (err : Option Nat), (exec pre err).2 = none → (exec (pre.andThen (.deferRecover true rest)) err).2 = none

/-- It is false: a call deferred before runs afterwards, with the error set: `defer func() { if err != nil { panic(1) } }(); defer util.Recover(&err); panic(2)`. -/
theorem C265_claim_false : ¬ C265_claim := by
  intro h
  have := h (.deferRun (.ifErr (.panic 1 .done) .done) .done) (.panic 2 .done) none (by decide)
  revert this
  decide

/-- Nor does it help to call `Recover` in a closure that is deferred, or without `defer`: the panic comes out. -/
theorem C265_not_direct : (exec (.deferWrapped (.panic 2 .done)) none).2 = some 2 ∧ (exec (.recoverHere (.panic 2 .done)) none).2 = some 2 ∧
    (exec (.panic 2 (.deferRecover true .done)) none).2 = some 2 ∧ (exec (.call (.deferRecover true .done) (.panic 2 .done)) none).2 = some 2 := by decide

/-- **C265, what holds anywhere**: after `defer util.Recover(&err)` (or `nil`) the rest of the function is, for all that was deferred before and for the caller, no more than
an assignment to `err`. -/
theorem C265_rest (b : Bool) (pre rest : Code) (err : Option Nat) :
    ∃ x, exec (pre.andThen (.deferRecover b rest)) err = exec (pre.andThen (.setErr x .done)) err := by
  induction pre generalizing err with
  | done => exact ⟨(exec (.deferRecover b rest) err).1, Prod.ext rfl (C265_no_panic b rest err)⟩
  | setErr e r ih => exact ih e
  | panic v r ih => exact ⟨none, rfl⟩
  | ifErr c r _ ih =>
    obtain ⟨x, h⟩ := ih err
    refine ⟨x, ?_⟩
    simp only [Code.andThen, exec, h]
  | call f r _ ih =>
    obtain ⟨x, h⟩ := ih err
    refine ⟨x, ?_⟩
    simp only [Code.andThen, exec, h]
  | recoverHere r ih => exact ih err
  | deferRecover c r ih =>
    obtain ⟨x, h⟩ := ih err
    refine ⟨x, ?_⟩
    simp only [Code.andThen, exec, h]
  | deferWrapped r ih => exact ih err
  | deferRun c r _ ih =>
    obtain ⟨x, h⟩ := ih err
    refine ⟨x, ?_⟩
    simp only [Code.andThen, exec, h]

/-- **C265, which panic**: of a panic and the panic of a call deferred after `Recover` the last one is the error; one that ends well leaves the panic under way. -/
theorem C265_last (d rest : Code) (err : Option Nat) : (exec (.deferRecover true (.deferRun d rest)) err).1 =
    match (exec d (exec rest err).1).2, (exec rest err).2 with
    | some v, _ => some v
    | none, some v => some v
    | none, none => (exec d (exec rest err).1).1 := by
  rw [C265_error]
  simp only [exec]
  generalize exec d (exec rest err).1 = x
  generalize (exec rest err).2 = y
  obtain ⟨x1, _ | x2⟩ := x <;> cases y <;> rfl

/-- The closures that are deferred let no panic out, whatever `err` is. -/
def Plain : Code → Prop
  | .done => True
  | .setErr _ r | .panic _ r | .call _ r | .recoverHere r | .deferRecover _ r | .deferWrapped r => Plain r
  | .ifErr b r => Plain b ∧ Plain r
  | .deferRun b r => (∀ e, (exec b e).2 = none) ∧ Plain r

/-- **C265, the part that holds**: the claim, if the calls deferred before let no panic out. -/
theorem C265_plain_partial (b : Bool) (pre rest : Code) (err : Option Nat) (hp : Plain pre) (h : (exec pre err).2 = none) :
    (exec (pre.andThen (.deferRecover b rest)) err).2 = none := by
  induction pre generalizing err with
  | done => exact C265_no_panic b rest err
  | setErr e r ih => exact ih e hp h
  | panic v r ih => cases h
  | ifErr c r _ ih =>
    simp only [Code.andThen, exec] at h ⊢
    split
    · rename_i h0
      rw [if_pos h0] at h
      exact ih err hp.2 h
    · rename_i h0
      rwa [if_neg h0] at h
  | call f r _ ih =>
    simp only [Code.andThen, exec] at h ⊢
    split
    · rename_i v hv
      rw [hv] at h
      cases h
    · rename_i hv
      rw [hv] at h
      exact ih err hp h
  | recoverHere r ih => exact ih err hp h
  | deferRecover c r ih =>
    exact C265_no_panic c _ err
  | deferWrapped r ih => exact ih err hp h
  | deferRun c r _ ih =>
    have e : ∀ r', (exec (.deferRun c r') err).2 = (exec r' err).2 := by
      intro r'
      have := hp.1 (exec r' err).1
      simp only [exec]
      generalize exec c (exec r' err).1 = x at this
      obtain ⟨x1, x2⟩ := x
      simp only at this
      subst this
      rfl
    rw [e] at h
    show (exec (.deferRun c (r.andThen (.deferRecover b rest))) err).2 = none
    rw [e]
    exact ih err hp.2 h

/-- A function that panics in a deferred call while a function it called panics; the last panic is the error. -/
example : exec (.deferRecover true (.deferRun (.panic 5 .done) (.call (.panic 3 .done) (.setErr (some 9) .done)))) none = (some 5, none) := by decide
/-- An error set before the panic is lost with `&err` and stays with `nil`. -/
example : exec (.deferRecover true (.setErr (some 9) (.panic 3 .done))) none = (some 3, none) ∧
    exec (.deferRecover false (.setErr (some 9) (.panic 3 .done))) none = (some 9, none) := by decide
example : Plain (.setErr (some 4) (.deferWrapped (.call (.deferRecover true (.panic 7 .done)) .done))) ∧
    (exec (.setErr (some 4) (.deferWrapped (.call (.deferRecover true (.panic 7 .done)) .done))) none).2 = none := ⟨trivial, by decide⟩

/-- A deferred closure that sets the error, before `Recover` is deferred. -/
example : Plain (.deferRun (.ifErr (.setErr (some 1) .done) .done) .done) ∧
    exec (.deferRun (.ifErr (.setErr (some 1) .done) .done) (.deferRecover true (.panic 2 .done))) none = (some 1, none) := by
  refine ⟨⟨?_, trivial⟩, by decide⟩
  intro e
  cases e <;> rfl
/-- The deferred call ends well and the panic goes on to `Recover`. -/
example : exec (.deferRecover true (.deferRun (.setErr (some 8) .done) (.panic 3 .done))) none = (some 3, none) := by decide

end Gofer.Props.Recover
