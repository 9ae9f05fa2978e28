import Verif.Proof.RaceFastio
/-!
# Property theorems: data races of fastio handles (C180)
-/
namespace Gofer.Props.RaceFastio
open Gofer.Race Gofer.Race.FastioR

/-- The methods of a handle can be called at the same time without a data race. -/
def C180_claim : Prop := ∀ x, RaceFreeOn Call (fun _ => 0) (fun _ => False) x

/-- A trace of goroutines 0 and 1, each in one call. -/
theorem follows_two {tr : Trace Unit Loc Int} {c0 c1 : List (Act Unit Loc Int)} (h0 : Call c0) (h1 : Call c1) (p0 : proj 0 tr <+: c0) (p1 : proj 1 tr <+: c1)
    (h : tr.all (fun e => e.1 < 2) = true) : Follows Call tr := by
  intro t
  match t with
  | 0 => exact ⟨[c0], by simpa using h0, by simpa using p0⟩
  | 1 => exact ⟨[c1], by simpa using h1, by simpa using p1⟩
  | t + 2 =>
    refine ⟨[], by simp, ?_⟩
    have : proj (t + 2) tr = [] := by
      simp only [proj, List.map_eq_nil_iff, List.filter_eq_nil_iff]
      intro e he
      have := List.all_eq_true.1 h e he
      simp only [decide_eq_true_eq] at this
      simp only [beq_iff_eq]; omega
    simp [this]

/-- A `WriteSync` alone finds data in the queue: `ioWrite` sets `ioend`. -/
def helps : List (Act Unit Loc Unit) :=
  [.rd .wc (), .rd .wc (), .wr .ioend (), .chan .ch, .rd .offset (), .armw .offset () (), .armw .wc () (), .wr .ioend (), .rd .offset (), .armw .offset () ()]

theorem helps_runs : syncBody.Runs helps :=
  path_runs (n := 100) (ch := [true, true, true, true, false, true, false]) (r := (helps, [])) (by decide)

/-- The slow way, looking at `ioend` once. -/
def looks : List (Act Unit Loc Unit) := [.armw .wc () (), .chan .ch, .rd .ioend ()]

theorem looks_runs : queue.Runs looks := path_runs (n := 100) (ch := [true, false]) (r := (looks, [])) (by decide)

/-- Two calls: the first goes the fast way and writes what the second has queued. -/
theorem two_calls : Call (.armw .cc 0 1 :: .lock () :: helps.map lift ++ [.unlock (), .armw .cc 2 1]) ∧
    Call (.armw .cc 1 2 :: looks.map lift ++ [.armw .cc 1 0]) :=
  ⟨.syncFast (v := 0) (u := 2) (by decide) helps_runs (List.prefix_refl _), .writeLeft (v := 1) (u := 1) (by decide) looks_runs⟩

/-- `ioend` is read without the mutex while it is written under it. -/
theorem C180_ioend : ¬ RaceFreeOn Call (fun _ => 0) (fun _ => False) .ioend := by
  intro h
  refine h [(0, .armw .cc 0 1), (1, .armw .cc 1 2), (1, .armw .wc 0 0), (1, .chan .ch), (0, .lock ()), (0, .rd .wc 0), (0, .rd .wc 0), (0, .wr .ioend 0),
    (1, .rd .ioend 0)] _ (Option.eq_some_of_isSome (by decide +kernel)) (fun _ h => h.elim) ?_ ?_
  · exact follows_two two_calls.1 two_calls.2 (by decide) (by decide) (by decide)
  · exact race_of_last (i := 7) (j := 8) (by decide) rfl rfl (by decide) rfl rfl (.inl rfl) (by decide)

/-- `wc` is read like a plain variable under the mutex, and counted up atomically without it. -/
theorem C180_wc : ¬ RaceFreeOn Call (fun _ => 0) (fun _ => False) .wc := by
  intro h
  refine h [(0, .armw .cc 0 1), (1, .armw .cc 1 2), (0, .lock ()), (0, .rd .wc 0), (1, .armw .wc 0 0)]
    _ (Option.eq_some_of_isSome (by decide +kernel)) (fun _ h => h.elim) ?_ ?_
  · exact follows_two two_calls.1 two_calls.2 (by decide) (by decide) (by decide)
  · exact race_of_last (i := 3) (j := 4) (by decide) rfl rfl (by decide) rfl rfl (.inr rfl) (by decide)

/-- Two `Close`s write `isClose`. -/
theorem C180_close : ¬ RaceFreeOn Call (fun _ => 0) (fun _ => False) .isClose := by
  intro h
  refine h [(0, .wr .isClose 0), (1, .wr .isClose 0)] _ (Option.eq_some_of_isSome (by decide +kernel)) (fun _ h => h.elim) ?_ ?_
  · exact follows_two .close .close (by decide) (by decide) (by decide)
  · exact race_of_last (i := 0) (j := 1) (by decide) rfl rfl (by decide) rfl rfl (.inl rfl) (by decide)

theorem C180_claim_false : ¬ C180_claim := fun h => C180_ioend (h _)

/-- The offset of the handle, which `WriteSync` returns, is safe although the fast way of `Write` changes it under the read lock and reads it like a plain
variable: two calls are never in the fast way at the same time, and their order is that of the counter of calls. So is the counter. -/
theorem C180_offset_partial : RaceFreeOn Call (fun _ => 0) (fun _ => False) .offset ∧ RaceFreeOn Call (fun _ => 0) (fun _ => False) .cc := by
  have A : ∀ {tr : Trace Unit Loc Int}, Follows Call tr → ∀ t, Allows K.ok K.next K.init (proj t tr) := fun hf t =>
    allows_follows (P := Idle) (fun c hc s hs => call_ok hc s hs) ⟨rfl, by simp [K.init]⟩ hf t
  refine ⟨fun tr s he _ hf => ?_, fun tr s he _ hf => cc_free (A hf)⟩
  obtain ⟨S, R⟩ := exec_run he
  exact offset_free R rfl (fun _ => rfl) (fun _ => rfl) (A hf)

/-- Executions with two accesses to `offset` by different goroutines exist: a `Write` in the fast way, and then another goroutine's. -/
example : ∃ (tr : Trace Unit Loc Int) (s : St Unit Loc Int), exec (St.init (fun _ => 0)) tr = some s ∧ Follows Call tr ∧
    (∃ i j : Nat, tr[i]? = some (0, .armw .offset 0 0) ∧ tr[j]? = some (1, .rd .offset 0) ∧ i < j) := by
  have h0 : writeBody.Runs [.rd .wc (), .armw .offset () ()] :=
    path_runs (n := 100) (ch := [false, true]) (r := (([.rd .wc (), .armw .offset () ()] : List (Act Unit Loc Unit)), [])) (by decide)
  have h1 : syncBody.Runs [.rd .wc (), .rd .offset (), .armw .offset () ()] :=
    path_runs (n := 100) (ch := [false]) (r := (([.rd .wc (), .rd .offset (), .armw .offset () ()] : List (Act Unit Loc Unit)), [])) (by decide)
  refine ⟨[(0, .armw .cc 0 1), (0, .rlock ()), (0, .rd .wc 0), (0, .armw .offset 0 0), (0, .runlock ()), (0, .armw .cc 1 0),
    (1, .armw .cc 0 1), (1, .lock ()), (1, .rd .wc 0), (1, .rd .offset 0)], _, Option.eq_some_of_isSome (by decide +kernel), ?_, 3, 9, rfl, rfl, by decide⟩
  exact follows_two (.writeFast (v := 0) (u := 1) (by decide) h0 (List.prefix_refl _)) (.syncFast (v := 0) (u := 1) (by decide) h1 (List.prefix_refl _))
    (by decide) (by decide) (by decide)

end Gofer.Props.RaceFastio
