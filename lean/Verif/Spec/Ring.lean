import Mathlib.Order.Defs.LinearOrder

/-!
# Specification of a consistent-hash ring (`Consistenthash`)

`P` are ring points (uint64 values), `N` nodes. The ring is the partial function from points to their
owners. `pt i n` is the point of the `i`-th replica of node `n`.
-/
namespace Gofer.Spec.Ring
variable {P N : Type} [LinearOrder P] [DecidableEq N]

/-- Node set and point ownership. -/
structure St (P N : Type) where
  nodes : List N
  ring : P → Option N

inductive Op (N : Type) where
  | add (ns : List N)
  | del (n : N)

/-- No nodes. -/
def empty : St P N := ⟨[], fun _ => none⟩

/-- Add one node with `r` replicas: a new node takes over all its points. -/
def add1 (r : Nat) (pt : Nat → N → P) (s : St P N) (n : N) : St P N :=
  if n ∈ s.nodes then s
  else ⟨n :: s.nodes, fun p => if p ∈ (List.range r).map (fun i => pt i n) then some n else s.ring p⟩

/-- Delete a node: its points become free. -/
def del (s : St P N) (n : N) : St P N :=
  ⟨s.nodes.filter (· ≠ n), fun p => if s.ring p = some n then none else s.ring p⟩

/-- One call. -/
def step (r : Nat) (pt : Nat → N → P) (s : St P N) : Op N → St P N
  | .add ns => ns.foldl (add1 r pt) s
  | .del n => del s n

/-- A history of calls on a new ring. -/
def exec (r : Nat) (pt : Nat → N → P) (os : List (Op N)) : St P N := os.foldl (step r pt) empty

omit [DecidableEq N] in
/-- `p` is the clockwise successor of `x`: the smallest owned point `≥ x`, or, if there is none, the
smallest owned point. -/
def IsSucc (ring : P → Option N) (x p : P) : Prop :=
  ring p ≠ none ∧
  ((x ≤ p ∧ ∀ q, ring q ≠ none → x ≤ q → p ≤ q) ∨
   ((∀ q, ring q ≠ none → q < x) ∧ ∀ q, ring q ≠ none → p ≤ q))

omit [DecidableEq N] in
/-- `n` owns the clockwise successor of `x`. -/
def Owner (ring : P → Option N) (x : P) (n : N) : Prop := ∃ p, IsSucc ring x p ∧ ring p = some n

/-- First occurrences, in order; `seen` are skipped. -/
def firsts {α : Type} [DecidableEq α] (seen : List α) : List α → List α
  | [] => []
  | a :: l => if a ∈ seen then firsts seen l else a :: firsts (a :: seen) l

/-- No two different nodes share a ring point. -/
def CollisionFree (r : Nat) (pt : Nat → N → P) (ns : List N) : Prop :=
  ∀ n ∈ ns, ∀ n' ∈ ns, ∀ i < r, ∀ j < r, pt i n = pt j n' → n = n'

omit [DecidableEq N] in
/-- Nodes mentioned in `Add` calls. -/
def added : List (Op N) → List N
  | [] => []
  | .add ks :: os => ks ++ added os
  | .del _ :: os => added os

omit [DecidableEq N] in
/-- The history contains an `Add` of at least one node. -/
def everAdded (os : List (Op N)) : Prop := added os ≠ []

end Gofer.Spec.Ring
