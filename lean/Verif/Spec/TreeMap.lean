/-!
# Specification of a sorted map (`TreeMap`)
-/
namespace Gofer.Spec.TreeMap

inductive Op (K V : Type) where
  | put (k : K) (v : V)
  | get (k : K)
  | del (k : K)

inductive Res (V : Type) where
  | unit
  | val (v : V) (ok : Bool)
deriving DecidableEq

variable {K V : Type} [DecidableEq K]

/-- One call on a partial function. -/
def step (zv : V) (s : K → Option V) : Op K V → (K → Option V) × Res V
  | .put k v => (fun x => if x = k then some v else s x, .val ((s k).getD zv) (s k).isSome)
  | .get k => (s, .val ((s k).getD zv) (s k).isSome)
  | .del k => (fun x => if x = k then none else s x, .unit)

/-- Results of a history. -/
def run (zv : V) : (K → Option V) → List (Op K V) → List (Res V)
  | _, [] => []
  | s, o :: os => (step zv s o).2 :: run zv (step zv s o).1 os

/-- The map after a history. -/
def final (zv : V) (s : K → Option V) (os : List (Op K V)) : K → Option V :=
  os.foldl (fun s o => (step zv s o).1) s

/-- The calls a callback receives when shown the entries `l` in order, until it returns false. The
callback may depend on the calls made before. -/
def visit {K V : Type} (f : List (K × V) → K → V → Bool) : List (K × V) → List (K × V) → List (K × V)
  | [], seen => seen
  | p :: l, seen => if f seen p.1 p.2 then visit f l (seen ++ [p]) else seen ++ [p]

end Gofer.Spec.TreeMap
