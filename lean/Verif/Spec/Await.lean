import Verif.Model.Await

/-! # Terms in which the properties of `Await` are stated -/
namespace Gofer.Await

variable {V : Type}

/-- The call is a `Wait` (or `WaitWithCancel`, `SyncWait`). -/
def isWait (c : Call V) : Bool := match c.kind with | .wait _ _ => true | _ => false

/-- In this run every `Wait` for the id `x` begins after the earlier ones for `x` have returned. -/
def Serial (ix : Id → Nat) (loops : Nat) (x : Id) : St V → List (Act V) → Prop
  | _, [] => True
  | s, a :: as => ((∃ timed ctx, a = .wait timed ctx x) → ∀ (i : Nat) (c : Call V), s.log[i]? = some c → isWait c = true → c.idx = x → ∃ r, c.pc = .wRet r) ∧
      ∀ t, act ix loops s a = some t → Serial ix loops x t as

/-- Every `CloseAndPut` and `Close` for `x` has returned. -/
def Quiet (x : Id) (s : St V) : Prop :=
  ∀ (i : Nat) (c : Call V), s.log[i]? = some c → isWait c = false → c.idx = x → ∃ e, c.pc = .ret e

/-- Call `w` waits in its `select` or receive, and there is nothing to receive: its channel is empty and open. -/
def Stuck (s : St V) (w : Nat) : Prop :=
  ∃ c ch k, s.log[w]? = some c ∧ c.pc = .select ch ∧ s.chans[ch]? = some k ∧ k.buf = none ∧ k.closed = false

/-- A `Close(x)` or a `CloseAndPut(x, _)` has been called, or a `Wait(x)` has timed out or been cancelled. -/
def Closer (x : Id) (s : St V) : Prop :=
  ∃ (j : Nat) (d : Call V), s.log[j]? = some d ∧ d.idx = x ∧ (d.kind = .close ∨ (∃ v, d.kind = .put v) ∨ d.pc = .wDel .error ∨ d.pc = .wRet .error)

end Gofer.Await
