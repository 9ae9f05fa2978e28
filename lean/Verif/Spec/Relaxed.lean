import Verif.Spec.Linear
import Verif.Spec.Recency
/-!
# A recency map in which a Put over the limit has two effects

The new entry appears first, the oldest one goes a moment later; in between, Get may look but every other operation has to wait.
-/
namespace Gofer.Spec.Relaxed
open Gofer.Spec.Assoc
open Gofer.Spec.Recency (Op Res)
open Gofer.Spec.Linear (Ev)

/-- What happens, in order: a call takes effect with its result; the oldest entry goes, on behalf of a call. -/
inductive Item (K V : Type) where
  | call (id : Nat) (op : Op K V) (r : Res K V)
  | evict (id : Nat)

/-- The call an item belongs to. -/
def Item.id {K V : Type} : Item K V → Nat
  | .call i _ _ => i
  | .evict i => i

/-- The call, its operation and result. -/
def Item.call? {K V : Type} : Item K V → Option (Nat × Op K V × Res K V)
  | .call i op r => some (i, op, r)
  | .evict _ => none

variable {K V : Type} [DecidableEq K]

/-- A call; the state is the entries, newest first, and whether the oldest one is about to go. -/
def step (zk : K) (zv : V) (limit : Int) : List (K × V) × Bool → Op K V → Option ((List (K × V) × Bool) × Res K V)
  | (es, over), .get k => some ((es, over), .val ((find k es).getD zv) (find k es).isSome)
  | (_, true), _ => none
  | (es, false), .put k v => some (((k, v) :: without k es, decide (find k es = none ∧ (es.length : Int) + 1 > limit)), .unit)
  | (es, false), .loadOrStore k v =>
    some (((k, v) :: without k es, decide (find k es = none ∧ (es.length : Int) + 1 > limit)), .val ((find k es).getD zv) (find k es).isSome)
  | (es, false), op => some (((Recency.step zk zv limit es op).1, false), (Recency.step zk zv limit es op).2)

/-- A sequence of items is possible and leads from one state to the other. -/
def Accepts (zk : K) (zv : V) (limit : Int) : List (K × V) × Bool → List (Item K V) → List (K × V) × Bool → Prop
  | s, [], s' => s = s'
  | s, .call _ op r :: L, s' => ∃ s1, step zk zv limit s op = some (s1, r) ∧ Accepts zk zv limit s1 L s'
  | s, .evict _ :: L, s' => s.2 = true ∧ Accepts zk zv limit (s.1.dropLast, false) L s'

/-- A history is explained by an order of effects that respects time: if a call returned before another began, all effects of the first come before all effects of the
second. -/
def Explained (zk : K) (zv : V) (limit : Int) (h : List (Ev (Op K V) (Res K V))) : Prop :=
  ∃ (L : List (Item K V)) (s : List (K × V) × Bool),
    ((L.filterMap Item.call?).map (fun x => x.1)).Nodup ∧
    (∀ i op r, Item.call i op r ∈ L → Ev.inv i op ∈ h) ∧
    (∀ i, Item.evict i ∈ L → ∃ op r, Item.call i op r ∈ L) ∧
    (∀ i r, Ev.res i r ∈ h → ∃ op, Item.call i op r ∈ L) ∧
    Accepts zk zv limit ([], false) L s ∧
    (∀ (a b i : Nat) (r : Res K V) (j : Nat) (op : Op K V), h[a]? = some (.res i r) → h[b]? = some (.inv j op) → a < b →
      ∀ (x y : Nat) (p q : Item K V), L[x]? = some p → L[y]? = some q → p.id = i → q.id = j → x < y)

end Gofer.Spec.Relaxed
