import Verif.Proof.KeyStoreConc
import Verif.Props.KeyStore

/-!
# The credential store used by several goroutines: property C219

An execution is any list of actions of any number of goroutines that the mutex allows, from a store that was loaded. What is seen
is the list of calls and returns, and the file.
-/
namespace Gofer.Props.KeyStoreConc
open Gofer.KeyBean Gofer.KeyStore Gofer.KeyStoreConc Gofer.Locked
open Gofer.Spec.KeyStore hiding Bytes
open Gofer.Spec.Linear
open Gofer.Spec.Codec (Codec)
open Gofer.Props.Compress (toy)
open Gofer.Props.KeyStore (anyPick)

/-- The orders of iteration of all calls are really such orders. -/
def PicksOf (h : List (Ev Call Res)) : Prop := ∀ i op, Ev.inv i op ∈ h → Picks op.2

/-- C219. Every concurrent history of the store is explained by one order of the calls that respects time and in which four
independent maps give the same answers. Whenever somebody looks at the file, during the calls too, it is empty, or as it was at
the beginning, or a complete form of the maps after the calls of that order. -/
theorem C219_linearizable (c : Codec) (limit : Nat) (digest : Bytes → Bytes) (file : Bytes) (hfull : Full (load c limit file)) (n : Nat)
    (as : List (Act n Call)) (s : Locked.St n Unit _ _ _ _)
    (h : exec (obj c digest) (init fun _ => ⟨load c limit file, file⟩) as = some s) (hp : PicksOf s.hist) :
    LinearizableTo (fun os rs => Accepts (md5Str digest) (contents (load c limit file)) (os.map Prod.fst) rs ∧
      ((s.st ()).file = [] ∨ (s.st ()).file = file ∨ ∃ kb o, OrdersOf kb o ∧
        contents kb = after (md5Str digest) (contents (load c limit file)) (os.map Prod.fst) ∧
        (s.st ()).file = write c (tEncode kb o))) s.hist := by
  have hi := inv_exec (impl c digest) as (inv_init _ _ _) h
  have hpk : AllPicks (s.log.map fun x => x.2.1) := by
    intro p hpm
    obtain ⟨x, hx, rfl⟩ := List.mem_map.1 hpm
    exact hp _ _ (hi.called x hx)
  obtain ⟨r1, r2, r3⟩ := run_spec c digest _ hpk ⟨load c limit file, file⟩ _ (rep_contents hfull (load_noNil c limit file))
  refine ⟨s.log, hi.nodup, hi.called, hi.returned, ⟨?_, ?_⟩, hi.order⟩
  · rw [hi.vals, results_run]
    exact r1
  · have hplay : (run c digest ⟨load c limit file, file⟩ (s.log.map fun x => x.2.1)).2.file = file ∨ ∃ kb o, OrdersOf kb o ∧
        contents kb = after (md5Str digest) (contents (load c limit file)) ((s.log.map fun x => x.2.1).map Prod.fst) ∧
        (run c digest ⟨load c limit file, file⟩ (s.log.map fun x => x.2.1)).2.file = write c (tEncode kb o) := by
      rcases r3 with r3 | ⟨o, ho, r3⟩
      · exact .inl (by rw [r3])
      · exact .inr ⟨_, o, ho, rep_eq r2, r3⟩
    by_cases hin : ∃ t op l, (s.pc t).inside = some (op, l)
    · obtain ⟨t, op, l, hin⟩ := hin
      have hr := hi.inside t op l hin
      rw [show (obj c digest).idx op = () from rfl, play_run] at hr
      rcases runs_file c digest op _ _ _ hr l rfl with hf | hf
      · rw [hf]; exact .inr hplay
      · exact .inl hf
    · rw [hi.quiet () (fun t op l hh _ => absurd ⟨t, op, l, hh⟩ hin), play_run]
      exact .inr hplay

/-- C219. When no call is under way, the store holds the maps after the calls, and the file is untouched or a complete form of
them: nothing is lost or left half done by calls at the same time. -/
theorem C219_at_rest (c : Codec) (limit : Nat) (digest : Bytes → Bytes) (file : Bytes) (hfull : Full (load c limit file)) (n : Nat)
    (as : List (Act n Call)) (s : Locked.St n Unit _ _ _ _)
    (h : exec (obj c digest) (init fun _ => ⟨load c limit file, file⟩) as = some s) (hp : PicksOf s.hist)
    (hq : ∀ t, (s.pc t).holds = none) :
    LinearizableTo (fun os rs => Accepts (md5Str digest) (contents (load c limit file)) (os.map Prod.fst) rs ∧
      contents (s.st ()).kb = after (md5Str digest) (contents (load c limit file)) (os.map Prod.fst) ∧
      ((s.st ()).file = file ∧ (s.st ()).kb = load c limit file ∨
        ∃ o, OrdersOf (s.st ()).kb o ∧ (s.st ()).file = write c (tEncode (s.st ()).kb o))) s.hist := by
  have hi := inv_exec (impl c digest) as (inv_init _ _ _) h
  have hpk : AllPicks (s.log.map fun x => x.2.1) := by
    intro p hpm
    obtain ⟨x, hx, rfl⟩ := List.mem_map.1 hpm
    exact hp _ _ (hi.called x hx)
  obtain ⟨r1, r2, r3⟩ := run_spec c digest _ hpk ⟨load c limit file, file⟩ _ (rep_contents hfull (load_noNil c limit file))
  have e : s.st () = (run c digest ⟨load c limit file, file⟩ (s.log.map fun x => x.2.1)).2 := by
    rw [hi.quiet () (fun t op l hin _ => absurd (inside_holds hin) (by rw [hq t]; nofun)), play_run]
  refine ⟨s.log, hi.nodup, hi.called, hi.returned, ⟨?_, ?_, ?_⟩, hi.order⟩
  · rw [hi.vals, results_run]
    exact r1
  · rw [e]; exact rep_eq r2
  · rw [e]
    rcases r3 with r3 | r3
    · exact .inl (by rw [r3]; exact ⟨rfl, rfl⟩)
    · exact .inr r3

/-- Goroutine 0 puts a client while goroutine 1 asks for it; goroutine 1 is let in after the file is written. -/
def twoCalls : List (Act 2 Call) :=
  [.call 0 (.put .client [97] [98] 1, anyPick), .call 1 (.get .client [97], anyPick), .lock 0, .micro 0, .micro 0, .micro 0, .unlock 0,
   .lock 1, .micro 1, .unlock 1, .ret 1, .ret 0]

/-- The file before, after `Truncate`, and after the write; the mutex keeps goroutine 1 out until then, and it gets the record. -/
example :
    ((exec (obj toy fun _ => [7]) (init fun _ => ⟨load toy 100 [], []⟩) (twoCalls.take 4)).map fun s => (s.st ()).file.length) = some 0 ∧
    ((exec (obj toy fun _ => [7]) (init fun _ => ⟨load toy 100 [], []⟩) (twoCalls.take 6)).map fun s => decide (0 < (s.st ()).file.length)) = some true ∧
    (exec (obj toy fun _ => [7]) (init fun _ => ⟨load toy 100 [], []⟩) (twoCalls.take 6 ++ [.lock 1])).isNone = true ∧
    ((exec (obj toy fun _ => [7]) (init fun _ => ⟨load toy 100 [], []⟩) twoCalls).map fun s =>
      s.log.map fun x => match x.2.2 with | .user (some u) => u.name | _ => []) = some [[], [97]] := by
  decide +kernel

end Gofer.Props.KeyStoreConc
