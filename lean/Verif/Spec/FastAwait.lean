import Verif.Model.FastAwait

/-! # Terms in which the properties of `FastAwait` are stated -/
namespace Gofer.FastAwait
open Gofer.Await (Id)

variable {V : Type}

/-- The call is a `Wait` (or `WaitWithCancel`). -/
def isWait (c : Call V) : Bool := match c.kind with | .wait _ _ => true | _ => false

/-- In this run every `Wait` for the id `x` begins after the earlier ones for `x` have returned. -/
def Serial (has : List Id → Id → Bool) (loops : Nat) (x : Id) : St V → List (Act V) → Prop
  | _, [] => True
  | s, a :: as => ((∃ timed ctx, a = .wait timed ctx x) → ∀ (i : Nat) (c : Call V), s.log[i]? = some c → isWait c = true → c.idx = x → ∃ r, c.pc = .wRet r) ∧
      ∀ t, act has loops s a = some t → Serial has loops x t as

/-- Every `CloseAndPut` and `Close` for `x` has returned. -/
def Quiet (x : Id) (s : St V) : Prop :=
  ∀ (i : Nat) (c : Call V), s.log[i]? = some c → isWait c = false → c.idx = x → ∃ e, c.pc = .ret e

/-- Call `w` waits in its `select` or receive, and there is nothing to receive: its channel is empty and open. -/
def Stuck (s : St V) (w : Nat) : Prop :=
  ∃ c ch k, s.log[w]? = some c ∧ c.pc = .select ch ∧ s.chans[ch]? = some k ∧ k.buf = none ∧ k.closed = false

/-- Steps of call `p`. -/
def isStep (p : Nat) : Act V → Bool
  | .step i => i == p
  | _ => false

end Gofer.FastAwait
