/-!
# Model of Go's `map` and of the library `sync.Map`

A finite map with unique keys. `sync.Map` operations are atomic (library assumption); iteration order
is unspecified in both, so it never appears in the model except as an arbitrary permutation.
Keys are compared with decidable equality: interface keys holding uncomparable values (a Go panic) and
NaN keys are outside the model.
-/
namespace Gofer

structure AMap (K A : Type) where
  entries : List (K × A)
  nodup : (entries.map Prod.fst).Nodup

namespace AMap
variable {K A : Type} [DecidableEq K]

def empty : AMap K A := ⟨[], List.nodup_nil⟩

/-- `m[k]` / `m.Load(k)`. -/
def load (m : AMap K A) (k : K) : Option A := (m.entries.find? fun p => p.1 = k).map Prod.snd

theorem nodup_filter (l : List (K × A)) (p : K × A → Bool) (h : (l.map Prod.fst).Nodup) :
    ((l.filter p).map Prod.fst).Nodup :=
  List.Pairwise.sublist (List.Sublist.map _ List.filter_sublist) h

/-- `delete(m, k)` / `m.Delete(k)`. -/
def delete (m : AMap K A) (k : K) : AMap K A :=
  ⟨m.entries.filter fun p => p.1 ≠ k, nodup_filter _ _ m.nodup⟩

/-- `m[k] = a` / `m.Store(k, a)`. -/
def store (m : AMap K A) (k : K) (a : A) : AMap K A :=
  ⟨(k, a) :: m.entries.filter fun p => p.1 ≠ k, by
    rw [List.map_cons, List.nodup_cons]
    refine ⟨?_, nodup_filter _ _ m.nodup⟩
    simp⟩

/-- `len(m)`. -/
def size (m : AMap K A) : Nat := m.entries.length

/-- `m.Swap(k, a)`: the previous value, if any, and the new map. -/
def swap (m : AMap K A) (k : K) (a : A) : Option A × AMap K A := (m.load k, m.store k a)

/-- `m.LoadAndDelete(k)`. -/
def loadAndDelete (m : AMap K A) (k : K) : Option A × AMap K A := (m.load k, m.delete k)

end AMap

/-- A Go type as the element type of an `any`: its zero value, and which of its values convert to the
nil interface (only possible if the type is itself an interface type; then that value is the zero
value). -/
class GoValue (V : Type) where
  zero : V
  isNil : V → Bool
  nil_zero : ∀ v, isNil v = true → v = zero

/-- Conversion `any(v)`; `none` is the nil interface. -/
def toAny {V : Type} [GoValue V] (v : V) : Option V := if GoValue.isNil v then none else some v

/-- A concrete (non-interface) type: no value converts to nil. -/
instance : GoValue Nat := ⟨0, fun _ => false, by simp⟩
instance : GoValue Int := ⟨0, fun _ => false, by simp⟩

/-- An interface type: `none` is its nil value. -/
instance {V : Type} : GoValue (Option V) := ⟨none, Option.isNone, by simp⟩

end Gofer
