import Verif.Spec.KeyStoreHeap
import Verif.Proof.AMap
/-! # Lemmas about the records of the credential store -/
namespace Gofer.KeyStoreHeap
open Gofer.Spec.KeyBean (User)
open Gofer.Spec.KeyStore (Kind)

/-- Every pointer points to a record, and no two names share one. -/
structure Inv (h : Heap) : Prop where
  lt : ∀ k n a, (h.maps k).load n = some a → a < h.recs.length
  inj : ∀ k n k' n' a, (h.maps k).load n = some a → (h.maps k').load n' = some a → k = k' ∧ n = n'

theorem load_setMap (h : Heap) (k k' : Kind) (x : AMap Bytes Nat) (n : Bytes) :
    ((setMap h k x).maps k').load n = if k' = k then x.load n else (h.maps k').load n := by
  unfold setMap; split <;> rename_i e <;> simp [e]

theorem inv_init : Inv Heap.init := ⟨by simp [Heap.init], by simp [Heap.init]⟩

theorem inv_step {digest : Bytes → Bytes} {h : Heap} (hi : Inv h) (a : Act) : Inv (step digest h a).2 := by
  cases a with
  | put k name pwd t =>
    have key : ∀ k' n a, ((step digest h (.put k name pwd t)).2.maps k').load n = some a →
        (k' = k ∧ n = name ∧ a = h.recs.length) ∨ ((k' ≠ k ∨ n ≠ name) ∧ (h.maps k').load n = some a) := by
      intro k' n a ha
      have ha : ((setMap h k ((h.maps k).store name h.recs.length)).maps k').load n = some a := ha
      rw [load_setMap] at ha
      split at ha
      · rename_i e
        rw [AMap.load_store] at ha
        split at ha
        · rename_i e'; exact .inl ⟨e, e', (Option.some.inj ha).symm⟩
        · rename_i e'; exact .inr ⟨.inr e', by rw [e]; exact ha⟩
      · rename_i e; exact .inr ⟨.inl e, ha⟩
    have len : (step digest h (.put k name pwd t)).2.recs.length = h.recs.length + 1 := by simp [step, save, setMap]
    constructor
    · intro k' n a ha
      rw [len]
      rcases key k' n a ha with ⟨_, _, rfl⟩ | ⟨_, h1⟩
      · omega
      · have := hi.lt k' n a h1; omega
    · intro k1 n1 k2 n2 a h1 h2
      rcases key k1 n1 a h1 with ⟨rfl, rfl, rfl⟩ | ⟨_, g1⟩ <;> rcases key k2 n2 _ h2 with ⟨rfl, rfl, e⟩ | ⟨_, g2⟩
      · exact ⟨rfl, rfl⟩
      · have := hi.lt _ _ _ g2; omega
      · have := hi.lt _ _ _ g1; omega
      · exact hi.inj _ _ _ _ _ g1 g2
  | del k name =>
    simp only [step]
    split
    · have key : ∀ k' n a, ((setMap h k ((h.maps k).delete name)).maps k').load n = some a → (h.maps k').load n = some a := by
        intro k' n a ha
        rw [load_setMap] at ha
        split at ha
        · rename_i e
          rw [AMap.load_delete] at ha
          split at ha
          · cases ha
          · rw [e]; exact ha
        · exact ha
      exact ⟨fun k' n a ha => hi.lt k' n a (key k' n a ha), fun k1 n1 k2 n2 a h1 h2 => hi.inj _ _ _ _ _ (key _ _ _ h1) (key _ _ _ h2)⟩
    · exact hi
  | get k name => exact hi
  | poke a u => exact ⟨fun k n b hb => by simpa [step] using hi.lt k n b hb, hi.inj⟩

theorem inv_run {digest : Bytes → Bytes} (as : List Act) : ∀ {h : Heap}, Inv h → Inv (run digest h as) := by
  induction as with
  | nil => intro h hi; exact hi
  | cons a as ih => intro h hi; exact ih (inv_step hi a)

/-- A step that is no Put or Del of the user and no write to its record leaves the user. -/
theorem view_step {digest : Bytes → Bytes} {h : Heap} (hi : Inv h) (a : Act) (k : Kind) (n : Bytes) (ha : about a ≠ some (k, n))
    (hk : ∀ p u, a = .poke p u → (h.maps k).load n ≠ some p) :
    ((step digest h a).2.maps k).load n = (h.maps k).load n ∧ view (step digest h a).2 k n = view h k n := by
  cases a with
  | put k' n' pw t =>
    have e : ((step digest h (.put k' n' pw t)).2.maps k).load n = (h.maps k).load n := by
      show ((setMap h k' ((h.maps k').store n' h.recs.length)).maps k).load n = _
      rw [load_setMap]
      split
      · rename_i e
        rw [AMap.load_store, if_neg (fun e' => ha (by simp [about, e, e'])), e]
      · rfl
    refine ⟨e, ?_⟩
    unfold view
    rw [e]
    cases hl : (h.maps k).load n with
    | none => rfl
    | some p =>
      have := hi.lt k n p hl
      show (h.recs ++ [_])[p]? = h.recs[p]?
      exact List.getElem?_append_left this
  | del k' n' =>
    simp only [step]
    split
    · have e : ((setMap h k' ((h.maps k').delete n')).maps k).load n = (h.maps k).load n := by
        rw [load_setMap]
        split
        · rename_i e
          rw [AMap.load_delete, if_neg (fun e' => ha (by simp [about, e, e'])), e]
        · rfl
      refine ⟨e, ?_⟩
      unfold view
      show (match ((setMap h k' ((h.maps k').delete n')).maps k).load n with | none => none | some a => h.recs[a]?) = _
      rw [e]
      cases (h.maps k).load n <;> rfl
    · exact ⟨rfl, rfl⟩
  | get k' n' => exact ⟨rfl, rfl⟩
  | poke p u =>
    refine ⟨rfl, ?_⟩
    unfold view
    show (match (h.maps k).load n with | none => none | some a => (h.recs.set p u)[a]?) = _
    cases hl : (h.maps k).load n with
    | none => rfl
    | some q =>
      have : p ≠ q := fun e => hk p u rfl (by rw [hl, e])
      exact List.getElem?_set_ne this

end Gofer.KeyStoreHeap
