import Verif.Model.Gosignal

/-! # What the properties of signals speak about: histories, last event first -/
namespace Gofer.Gosignal

/-- The signals that arrived since the call `i` of `ListenSignalEvent`, in order. -/
def since (i : Nat) (h : List Ev) : List Nat :=
  (h.reverse.dropWhile (· ≠ .listen i)).filterMap fun | .signal g => some g | _ => none

/-- The calls of the function of listener `i`: their arguments, in order. -/
def calls (i : Nat) (h : List Ev) : List Nat := h.reverse.filterMap fun | .call j g => if j = i then some g else none | _ => none

/-- Signals that had their default action, in order. -/
def defaults (h : List Ev) : List Nat := h.reverse.filterMap fun | .dflt g => some g | _ => none

/-- The signals a call with these arguments is for: those given, or all if none is. -/
def For (sigs : List Nat) (g : Nat) : Prop := sigs = [] ∨ g ∈ sigs

/-- No goroutine can go on. -/
def quiescent (s : St) : Prop := ∀ i, step s (.step i) = none

end Gofer.Gosignal
