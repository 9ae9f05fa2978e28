import Verif.Proof.RaceMmap
/-!
# Property theorems: data races of mapped files (C181)
-/
namespace Gofer.Props.RaceMmap
open Gofer.Race Gofer.Race.MmapR

/-- Any number of `Append`s, `AppendSync`s, `WriteAt`s and `WriteAtSync`s at the same time: there is no data race on the offset, nor on a byte that no `WriteAt`
covers. In particular `Append`s do not race with each other although the bytes are copied outside the mutex. -/
theorem C181_mmap (max start : Int) (at' : Int → Nat → Prop) :
    RaceFreeOn (Call max at') (fun _ => start) (fun _ => False) .off ∧
      ∀ x, (∀ o n, at' o n → ¬ (o ≤ x ∧ x < o + n)) → RaceFreeOn (Call max at') (fun _ => start) (fun _ => False) (.byte x) := by
  have key : ∀ {x : Option Int}, (∀ y, some y = x → ∀ o n, at' o n → ¬ (o ≤ y ∧ y < o + n)) → ∀ {tr : Trace Unit Loc Int}, Follows (Call max at') tr →
      ∀ t, Allows (K.ok x) K.next K.init (proj t tr) := fun hx _ hf t => allows_follows (P := Idle) (fun c hc s hs => call_ok hx hc s hs) (by rfl) hf t
  refine ⟨fun tr s he _ hf => ?_, fun x hx tr s he _ hf => ?_⟩ <;> obtain ⟨S, R⟩ := exec_run he
  · exact off_free R (fun _ => rfl) (fun _ => rfl) (key (x := none) (by simp) hf)
  · exact byte_free R (key (by rintro y ⟨⟩; exact hx) hf)

/-- Two appends at the same time, of two bytes and of one: an execution with all their accesses. -/
def appends : Trace Unit Loc Int :=
  [(0, .lock ()), (0, .rd .off 5), (0, .rd .off 5), (0, .rd .off 5), (0, .wr .off 7), (0, .unlock ()), (1, .lock ()), (1, .rd .off 7), (0, .wr (.byte 5) 0),
    (1, .rd .off 7), (1, .rd .off 7), (1, .wr .off 8), (1, .unlock ()), (1, .wr (.byte 7) 0), (0, .wr (.byte 6) 0)]

/-- The execution is one of those the theorem is about. -/
example : (exec (St.init (fun _ => 5)) appends).isSome = true ∧ Follows (Call 100 fun _ _ => False) appends := by
  refine ⟨by decide +kernel, fun t => ?_⟩
  match t with
  | 0 => exact ⟨[_], by simpa using Call.append (v1 := 5) (v2 := 5) (v3 := 5) (n := 2) (by decide), by decide⟩
  | 1 => exact ⟨[_], by simpa using Call.append (v1 := 7) (v2 := 7) (v3 := 7) (n := 1) (by decide), by decide⟩
  | t + 2 => exact ⟨[], by simp, by simp [proj, appends]⟩

/-- On bytes that a `WriteAt` covers there can be a race: `WriteAt` of the bytes an `Append` has reserved. -/
theorem C181_covered : ¬ RaceFreeOn (Call 100 fun o n => o = 0 ∧ n = 1) (fun _ => 0) (fun _ => False) (.byte 0) := by
  intro h
  refine h [(0, .lock ()), (0, .rd .off 0), (0, .rd .off 0), (0, .rd .off 0), (0, .wr .off 1), (0, .unlock ()), (1, .lock ()), (1, .rd .off 1), (1, .unlock ()),
    (0, .wr (.byte 0) 0), (1, .wr (.byte 0) 0)] _ (Option.eq_some_of_isSome (by decide +kernel)) (fun _ h => h.elim) ?_ ?_
  · intro t
    match t with
    | 0 => exact ⟨[_], by simpa using Call.append (v1 := 0) (v2 := 0) (v3 := 0) (n := 1) (by decide), by decide⟩
    | 1 => exact ⟨[_], by simpa using Call.writeIn (v := 1) (o := 0) (n := 1) ⟨rfl, rfl⟩ (by decide) (by decide), by decide⟩
    | t + 2 => exact ⟨[], by simp, by simp [proj]⟩
  · exact race_of_last (i := 9) (j := 10) (by decide) rfl rfl (by decide) rfl rfl (.inl rfl) (by decide)

end Gofer.Props.RaceMmap
