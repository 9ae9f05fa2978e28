/-!
# Specification of a key/value map
-/
namespace Gofer.Spec.Map

inductive Op (K V : Type) where
  | put (k : K) (v : V)
  | del (k : K)
  | get (k : K)
  | has (k : K)

/-- What a call returns. -/
inductive Res (V : Type) where
  | val (v : V) (b : Bool)
  | ok (b : Bool)
deriving DecidableEq

/-- A map is a partial function. -/
abbrev St (K V : Type) := K → Option V

variable {K V : Type} [DecidableEq K]

/-- Specification of one call. `zero` is the zero value of `V`; `nil v` says that `v` is the nil value
of an interface type, for which `Put` of this package does not report a previous value. -/
def step (zero : V) (nil : V → Bool) (s : St K V) : Op K V → St K V × Res V
  | .put k v => (fun x => if x = k then some v else s x,
      .val ((s k).getD zero) (match s k with | some old => !nil old | none => false))
  | .del k => (fun x => if x = k then none else s x, .ok (s k).isSome)
  | .get k => (s, .val ((s k).getD zero) (s k).isSome)
  | .has k => (s, .ok (s k).isSome)

/-- Results of a history from the empty map. -/
def run (zero : V) (nil : V → Bool) : St K V → List (Op K V) → List (Res V)
  | _, [] => []
  | s, o :: os => (step zero nil s o).2 :: run zero nil (step zero nil s o).1 os

/-- The map after a history. -/
def final (zero : V) (nil : V → Bool) (s : St K V) (os : List (Op K V)) : St K V :=
  os.foldl (fun s o => (step zero nil s o).1) s

end Gofer.Spec.Map
