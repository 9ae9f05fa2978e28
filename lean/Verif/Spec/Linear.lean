/-!
# Linearizability

Of a concurrent history only calls and returns are seen. It is linearizable if the calls can be put in one order that respects time
(a call that returned before another began comes first) and in which a sequential object gives the same results.
-/
namespace Gofer.Spec.Linear

/-- What is seen: call number `id` begins with the operation `op`, call number `id` returns `r`. -/
inductive Ev (Op R : Type) where
  | inv (id : Nat) (op : Op)
  | res (id : Nat) (r : R)
deriving DecidableEq

/-- `ok ops rs` says that the sequential object may answer the operations `ops`, done one after the other, with `rs`.
The order `L` has all calls that returned, with their results; it may have calls that have not returned yet. -/
def LinearizableTo {Op R : Type} (ok : List Op → List R → Prop) (h : List (Ev Op R)) : Prop :=
  ∃ L : List (Nat × Op × R),
    (L.map (fun x => x.1)).Nodup ∧
    (∀ x ∈ L, Ev.inv x.1 x.2.1 ∈ h) ∧
    (∀ i r, Ev.res i r ∈ h → ∃ op, (i, op, r) ∈ L) ∧
    ok (L.map (fun x => x.2.1)) (L.map (fun x => x.2.2)) ∧
    (∀ (a b i : Nat) (r : R) (j : Nat) (op : Op), h[a]? = some (.res i r) → h[b]? = some (.inv j op) → a < b →
      ∀ (x y : Nat) (p q : Nat × Op × R), L[x]? = some p → L[y]? = some q → p.1 = i → q.1 = j → x < y)

/-- For an object whose answers are a function of the operations. -/
def Linearizable {Op R : Type} (run : List Op → List R) (h : List (Ev Op R)) : Prop := LinearizableTo (fun os rs => rs = run os) h

end Gofer.Spec.Linear
