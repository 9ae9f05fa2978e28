import Verif.Proof.MapConc
/-! # Property C173: `Map` and `MapL` are linearizable -/
namespace Gofer.Props.MapConc
open Gofer.MapConc
open Gofer.Spec.Linear
open Gofer.Spec.MapLin (OpL ResL ok)

/-- All methods but Range. -/
def C173_claim : Prop := ∀ (n : Nat) (as : List (Act n Nat Nat)) (s : St n Nat Nat), exec true St.init as = some s →
  LinearizableTo (ok GoValue.zero GoValue.isNil) s.hist

/-- What returned. -/
def Ev.res? {O R : Type} : Ev O R → Option (Nat × R)
  | .inv _ _ => none
  | .res i r => some (i, r)

/-- A Put of key 1 that has not yet counted, a Del of key 1 that has, and then a Len, all by different goroutines. -/
def negative : List (Act 3 Nat Nat) :=
  [.call 0 (.base (.put 1 7)), .map 0, .call 1 (.base (.del 1)), .map 1, .add 1, .ret 1, .call 2 .len, .map 2, .ret 2]

/-- Len answers -1, which no order explains. -/
theorem C173_claim_false : ¬ C173_claim := by
  intro h
  obtain ⟨s, hs⟩ := Option.isSome_iff_exists.1 (show (exec true (St.init : St 3 Nat Nat) negative).isSome = true by decide +kernel)
  have hh : Ev.res 2 (ResL.num (-1)) ∈ s.hist := by
    have e : ((exec true (St.init : St 3 Nat Nat) negative).map fun s => s.hist.getLast?.bind Ev.res?) = some (some (2, ResL.num (-1))) := by decide +kernel
    rw [hs] at e
    simp only [Option.map_some, Option.some.injEq, Option.bind_eq_some_iff] at e
    obtain ⟨x, hx, hx2⟩ := e
    cases x with
    | inv i op => cases hx2
    | res i r => cases hx2; exact List.mem_of_getLast? hx
  obtain ⟨L, _, h2, h3, h4, _⟩ := h 3 negative s hs
  obtain ⟨op, hop⟩ := h3 2 _ hh
  obtain ⟨i, hi⟩ := List.getElem?_of_mem hop
  have h5 := h4.2 i op (.num (-1)) (by simp [hi]) (by simp [hi])
  cases op with
  | base op => simp [Spec.MapLin.answer] at h5
  | len =>
    obtain ⟨keys, _, _, h6⟩ := h5
    injection h6 with h6
    omega

/-- Without Len, `MapL` is linearizable: Put, Get, Has and Del of any number of goroutines are explained by one order that respects time in which a partial function
answers the same. -/
theorem C173_mapL_partial {K V : Type} [DecidableEq K] [GoValue V] {n : Nat} (as : List (Act n K V)) (s : St n K V) (hn : ∀ t, Act.call t .len ∉ as)
    (h : exec true St.init as = some s) : LinearizableTo (ok GoValue.zero GoValue.isNil) s.hist := linearizable hn h

/-- `Map` is linearizable (it has no Len). -/
theorem C173_map {K V : Type} [DecidableEq K] [GoValue V] {n : Nat} (as : List (Act n K V)) (s : St n K V) (hn : ∀ t, Act.call t .len ∉ as)
    (h : exec false St.init as = some s) : LinearizableTo (ok GoValue.zero GoValue.isNil) s.hist := linearizable hn h

/-- Two Puts and a Get that overlap. -/
example : ((exec false (St.init : St 3 Nat Nat) [.call 0 (.base (.put 1 7)), .call 1 (.base (.put 1 8)), .call 2 (.base (.get 1)), .map 1, .map 0, .map 2,
    .ret 2, .ret 1, .ret 0]).map fun s => s.hist.length) = some 6 := by decide +kernel

/-- A Get, begun before a Put, that returns the value of the Put, which returns later. -/
example : ((exec true (St.init : St 2 Nat Nat) [.call 0 (.base (.get 1)), .call 1 (.base (.put 1 7)), .map 1, .map 0, .ret 0, .add 1, .ret 1]).map fun s =>
    (s.hist.length, s.len)) = some (4, 1) := by decide +kernel

end Gofer.Props.MapConc
