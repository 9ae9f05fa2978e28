import Verif.Model.KeyStoreConc
import Verif.Proof.KeyStore
import Verif.Proof.Linear

/-! # Lemmas on the credential store under concurrent use -/
namespace Gofer.KeyStoreConc
open Gofer.KeyBean Gofer.KeyStore Gofer.Locked
open Gofer.Spec.KeyStore (Op Res Kind)
open Gofer.Spec.Codec (Codec)

/-- A whole method. -/
def ap (c : Codec) (digest : Bytes → Bytes) (op : Call) (s : St) : St × Res := ((step c digest op.2 s op.1).2, (step c digest op.2 s op.1).1)

/-- `step` in terms of `change`. -/
theorem step_change (c : Codec) (digest : Bytes → Bytes) (pick : KB → Orders) (s : St) (op : Op) :
    step c digest pick s op = match change digest pick s.kb op with
      | .inl kb => (.done, save c pick kb)
      | .inr r => (r, s) := by
  cases op with
  | put k n p t => simp only [step, change]; cases mapOf s.kb k <;> rfl
  | del k n =>
    simp only [step, change]
    cases mapOf s.kb k with
    | none => rfl
    | some m => dsimp only; split <;> rfl
  | get k n =>
    simp only [step, change]
    rcases loadOf (mapOf s.kb k) n with _ | _ | u <;> rfl
  | list k => simp only [step, change]; cases mapOf s.kb k <;> rfl
  | putOther n v => simp only [step, change]; cases s.kb.other <;> rfl
  | delOther n =>
    simp only [step, change]
    cases s.kb.other with
    | none => rfl
    | some m => dsimp only; split <;> rfl
  | getOther n => rfl

/-- What remains to be done. -/
def rest (c : Codec) (digest : Bytes → Bytes) (op : Call) : Loc → St → St × Res
  | .begin, s => ap c digest op s
  | .truncate, s => (save c op.2 s.kb, .done)
  | .write, s => (save c op.2 s.kb, .done)

theorem impl (c : Codec) (digest : Bytes → Bytes) : Impl (obj c digest) (ap c digest) := by
  refine impl_of_rest _ _ (rest c digest) (fun _ _ => rfl) ?_ (fun _ h => nomatch h)
  intro op l s
  cases l with
  | begin =>
    simp only [obj, stepConc, rest, ap, step_change]
    cases change digest op.2 s.kb op.1 <;> rfl
  | truncate => rfl
  | write => rfl

theorem play_run (c : Codec) (digest : Bytes → Bytes) (os : List Call) (s : St) :
    play (obj c digest).idx (ap c digest) (fun _ => s) os () = (run c digest s os).2 := by
  induction os generalizing s with
  | nil => rfl
  | cons o os ih =>
    have : play (obj c digest).idx (ap c digest) (fun _ => s) (o :: os) = play (obj c digest).idx (ap c digest) (fun _ => (ap c digest o s).1) os := by
      rw [play]; congr
    rw [this, ih]
    rfl

theorem results_run (c : Codec) (digest : Bytes → Bytes) (os : List Call) (s : St) :
    results (obj c digest).idx (ap c digest) (fun _ => s) os = (run c digest s os).1 := by
  induction os generalizing s with
  | nil => rfl
  | cons o os ih =>
    have : results (obj c digest).idx (ap c digest) (fun _ => s) (o :: os) =
        (ap c digest o s).2 :: results (obj c digest).idx (ap c digest) (fun _ => (ap c digest o s).1) os := by
      rw [results]; congr
    rw [this, ih]
    rfl

/-- In the middle of a method the file is as before or empty. -/
theorem runs_file (c : Codec) (digest : Bytes → Bytes) (op : Call) (s s' : St) (z : Loc ⊕ Res)
    (h : Runs (obj c digest) op s .begin s' z) : ∀ l, z = .inl l → s'.file = s.file ∨ s'.file = [] := by
  induction h with
  | refl => exact fun _ _ => .inl rfl
  | step h ih =>
    rename_i s1 l1
    intro l hl
    replace ih := ih l1 rfl
    revert hl
    simp only [obj]
    cases l1 with
    | begin =>
      simp only [stepConc]
      cases change digest op.2 s1.kb op.1 with
      | inl kb => exact fun _ => ih
      | inr r => exact fun h => nomatch h
    | truncate => exact fun _ => .inr rfl
    | write => exact fun h => nomatch h

end Gofer.KeyStoreConc
