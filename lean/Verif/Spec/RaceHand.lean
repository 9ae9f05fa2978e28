import Verif.Spec.Race
/-! # Memory that is handed from one goroutine to another -/
namespace Gofer.Race
variable {M X V : Type}

/-- Goroutines that make calls out of `S` on a new object, in any number and any interleaving: whoever reads `x` reads what was written to it by a write that happened before.
`C` are the locations that are written once. -/
def Delivered [DecidableEq M] [DecidableEq X] [DecidableEq V] (S : List (Act M X V) → Prop) (mem : X → V) (C : X → Prop) (x : X) : Prop :=
  ∀ tr s, exec (St.init mem) tr = some s → FreshAlloc C tr → Follows S tr →
    ∀ j u v, tr[j]? = some (u, .rd x v) → ∃ i t, tr[i]? = some (t, .wr x v) ∧ hb tr i j

end Gofer.Race
