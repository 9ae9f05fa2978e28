/-!
# Exclusive use of pooled objects

What users see of a pool is a trace of objects handed out and released.
-/
namespace Gofer.Spec.Pool

/-- `got p c`: object `p` was handed out holding `c`. `released p`: a user gave `p` back. -/
inductive Event (α : Type) where
  | got (p : Nat) (c : α)
  | released (p : Nat)
deriving DecidableEq

/-- No object is handed out while it is in use; `used` are the objects in use now. -/
def Exclusive {α : Type} (used : List Nat) : List (Event α) → Prop
  | [] => True
  | .got p _ :: es => p ∉ used ∧ Exclusive (p :: used) es
  | .released p :: es => Exclusive (used.erase p) es

/-- Users give back only what they have. -/
def Disciplined {α : Type} (used : List Nat) : List (Event α) → Prop
  | [] => True
  | .got p _ :: es => Disciplined (p :: used) es
  | .released p :: es => p ∈ used ∧ Disciplined (used.erase p) es

/-- Size class of a length: the largest `i` with `8 * 2^i ≤ n`, and class 0 for less than 16. -/
def IsClass (n i : Nat) : Prop := n < 8 * 2 ^ (i + 1) ∧ (i = 0 ∨ 8 * 2 ^ i ≤ n)

end Gofer.Spec.Pool
