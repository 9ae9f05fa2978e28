import Verif.Proof.KeyStoreHeap
/-! # Property C183: the records that the credential store hands out -/
namespace Gofer.Props.KeyStoreHeap
open Gofer.KeyStoreHeap
open Gofer.Spec.KeyBean (User)
open Gofer.Spec.KeyStore (Kind)

/-- C183, as stated: a caller may do what it likes with the record it was given; as long as nobody calls Put or Del for a user, Get finds what was there, and what is written is what
was put. So: the steps `as` contain no Put or Del of the user; then its record is the same. -/
def C183_claim : Prop := ∀ (digest : Bytes → Bytes) (before as : List Act) (k : Kind) (n : Bytes), (∀ a ∈ as, about a ≠ some (k, n)) →
  view (run digest Heap.init (before ++ as)) k n = view (run digest Heap.init before) k n

/-- C183. The store itself never changes a record it has made: what a caller was given stays as it is, through Puts and Dels of the same user and others, until some caller
writes to it. -/
theorem C183_record_kept (digest : Bytes → Bytes) (h : Heap) (as : List Act) (hc : ∀ a ∈ as, isCall a) (p : Nat) (hp : p < h.recs.length) :
    (run digest h as).recs[p]? = h.recs[p]? := by
  induction as generalizing h with
  | nil => rfl
  | cons a as ih =>
    have hlen : h.recs.length ≤ (step digest h a).2.recs.length ∧ (step digest h a).2.recs[p]? = h.recs[p]? := by
      cases a with
      | put k n pw t => simp [step, save, setMap, List.getElem?_append_left hp]
      | del k n => simp only [step]; split <;> simp [save, setMap]
      | get k n => simp [step]
      | poke b u => exact (hc (.poke b u) (by simp)).elim
    show (run digest (step digest h a).2 as).recs[p]? = _
    rw [ih _ (fun b hb => hc b (by simp [hb])) (by omega), hlen.2]

/-- C183. The claim holds if no caller writes to the record of that user while it is in the store. Writing to records that have been replaced or deleted, or that belong to others, is
harmless. Missing: writing to the record itself. -/
theorem C183_own_record_partial (digest : Bytes → Bytes) (before as : List Act) (k : Kind) (n : Bytes) (ha : ∀ a ∈ as, about a ≠ some (k, n))
    (hk : ∀ p u, .poke p u ∈ as → ((run digest Heap.init before).maps k).load n ≠ some p) :
    view (run digest Heap.init (before ++ as)) k n = view (run digest Heap.init before) k n := by
  have app : ∀ (l l' : List Act) (h : Heap), run digest h (l ++ l') = run digest (run digest h l) l' := by
    intro l
    induction l with
    | nil => intros; rfl
    | cons a l ih => intro l' h; exact ih l' _
  rw [app]
  have hi : Inv (run digest Heap.init before) := inv_run before inv_init
  generalize run digest Heap.init before = h at *
  induction as generalizing h with
  | nil => rfl
  | cons a as ih =>
    obtain ⟨e1, e2⟩ := view_step (digest := digest) hi a k n (ha a (by simp)) (fun p u e => hk p u (by simp [e]))
    show view (run digest (step digest h a).2 as) k n = _
    rw [ih (fun b hb => ha b (by simp [hb])) _ (fun p u hm => by rw [e1]; exact hk p u (by simp [hm])) (inv_step hi a), e2]

/-- C183. How it fails, for every user of every store: writing to the record that Get returned changes what Get returns to everybody, and the next Put or Del of any other user
writes it to the file. -/
theorem C183_write_through (digest : Bytes → Bytes) (before : List Act) (k : Kind) (n : Bytes) (p : Nat)
    (hp : (step digest (run digest Heap.init before) (.get k n)).1 = some p) (u : User) (k' : Kind) (n' pw : Bytes) (t : UInt8) (hne : (k', n') ≠ (k, n)) :
    let h := (step digest (run digest Heap.init before) (.poke p u)).2
    view h k n = some u ∧ (step digest h (.put k' n' pw t)).2.disk k n = some u := by
  intro h
  have hi : Inv (run digest Heap.init before) := inv_run before inv_init
  have hp' : ((run digest Heap.init before).maps k).load n = some p := hp
  have hlt := hi.lt k n p hp'
  have h1 : view h k n = some u := by
    unfold view
    show (match ((run digest Heap.init before).maps k).load n with | none => none | some a => ((run digest Heap.init before).recs.set p u)[a]?) = _
    rw [hp']
    simp [hlt]
  refine ⟨h1, ?_⟩
  have := (view_step (digest := digest) (inv_step (digest := digest) hi (.poke p u)) (.put k' n' pw t) k n (by simpa [about] using hne) (by simp)).2
  have e : (step digest h (.put k' n' pw t)).2.disk k n = view (step digest h (.put k' n' pw t)).2 k n := rfl
  rw [e]
  exact this.trans h1

/-- C183 is false. -/
theorem C183_claim_false : ¬ C183_claim := by
  intro h
  have := h (fun _ => [7]) [.put .admin [97] [1] 1] [.get .admin [97], .poke 0 ⟨[97], [], 9⟩] .admin [97] (by simp [about])
  revert this
  decide +kernel

/-! ### Concrete cases -/

/-- A user is put twice: the record of the first Put is still there, with the first password; the caller who got it does not see the second. -/
example : (run (fun p => p) Heap.init [.put .mq [97] [1] 1, .put .mq [97] [2] 1]).recs.map User.pwd = [[48, 49], [48, 50]] := by decide +kernel
example : view (run (fun p => p) Heap.init [.put .mq [97] [1] 1, .put .mq [97] [2] 1, .poke 0 ⟨[], [], 0⟩]) .mq [97] = some ⟨[97], [48, 50], 1⟩ := by decide +kernel
example : (step (fun _ => [7]) (run (fun _ => [7]) Heap.init [.put .admin [97] [1] 1]) (.get .admin [97])).1 = some 0 := by decide +kernel

end Gofer.Props.KeyStoreHeap
