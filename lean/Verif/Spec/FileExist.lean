import Verif.Model.FileExist
import Mathlib.Data.List.Forall2

/-! # Where paths lead (specification) -/
namespace Gofer.Spec.FileExist
open Gofer.FileExist

/-- The pieces with slashes between them. -/
def joined : List Bytes → Bytes
  | [] => []
  | [x] => x
  | x :: y :: r => x ++ 47 :: joined (y :: r)

/-- What a piece of a path stands for: nothing, ".", "..", or a name. -/
def Stands (n : Bytes) : Comp → Prop
  | .slash => n = []
  | .here => n = [46]
  | .up => n = [46, 46]
  | .name m => m = n ∧ n ≠ [] ∧ n ≠ [46] ∧ n ≠ [46, 46]

/-- The components of a path: it is pieces without slashes, with slashes between them. -/
def Path (p : Bytes) (cs : List Comp) : Prop := ∃ ps : List Bytes, ps ≠ [] ∧ (∀ x ∈ ps, 47 ∉ x) ∧ joined ps = p ∧ List.Forall₂ Stands ps cs

/-- A path that begins with a slash starts at the root, any other where one is. -/
def From (root place : List Node) (p : Bytes) (q : List Node) : Prop := ((∃ r, p = 47 :: r) → q = root) ∧ ((¬ ∃ r, p = 47 :: r) → q = place)

/-- `Leads root place cs x k`: from the place the components lead to `x`, over `k` links, through directories that the caller may
search. -/
inductive Leads (root : List Node) : List Node → List Comp → Node → Nat → Prop
  | done (x : Node) (above : List Node) : Leads root (x :: above) [] x 0
  | slash {s es above cs x k} : Leads root (.dir s es :: above) cs x k → Leads root (.dir s es :: above) (.slash :: cs) x k
  | here {es above cs x k} : Leads root (.dir true es :: above) cs x k → Leads root (.dir true es :: above) (.here :: cs) x k
  | top {es cs x k} : Leads root [.dir true es] cs x k → Leads root [.dir true es] (.up :: cs) x k
  | up {es d above cs x k} : Leads root (d :: above) cs x k → Leads root (.dir true es :: d :: above) (.up :: cs) x k
  | name {es above cs x k n y} : n.length ≤ 255 → es.lookup n = some y → (∀ t, y ≠ .link t) →
      Leads root (y :: .dir true es :: above) cs x k → Leads root (.dir true es :: above) (.name n :: cs) x k
  | link {es above cs x k n t ts q} : n.length ≤ 255 → es.lookup n = some (.link t) → t ≠ [] → Path t ts →
      From root (.dir true es :: above) t q → Leads root q (ts ++ cs) x k → Leads root (.dir true es :: above) (.name n :: cs) x (k + 1)

mutual
/-- The same tree for a caller who may search all directories. -/
def unlocked : Node → Node
  | .file => .file
  | .link t => .link t
  | .dir _ es => .dir true (unlockedList es)
def unlockedList : List (Bytes × Node) → List (Bytes × Node)
  | [] => []
  | (n, x) :: r => (n, unlocked x) :: unlockedList r
end

/-- The path is the name of an entry: all but the last component leads to a directory, for a caller who may search all of them, and the
directory has an entry with the last component as its name. -/
def Entry (root : Node) (path : Bytes) : Prop :=
  ∃ cs n, Path path (cs ++ [.name n]) ∧ ∃ es k, Leads [unlocked root] [unlocked root] cs (.dir true es) k ∧ (es.lookup n).isSome

end Gofer.Spec.FileExist
