import Verif.Proof.RaceUuid
/-! # Property C184: data races of `NewUUID` -/
namespace Gofer.Props.RaceUuid
open Gofer.Race Gofer.Race.UuidR

/-- C184, as stated: whatever the random start of the sequence (below 2^60 - 1), calls of `NewUUID` have no data race. -/
def C184_claim : Prop := ∀ start, start < 2 ^ 60 - 1 → ∀ x, RaceFreeOn Call (memOf start 0) (fun _ => False) x

/-- C184. There is none in the first 2^63 calls, by any number of goroutines. Missing: the call that takes the last sequence number of all. -/
theorem C184_race_free_partial (start : Nat) (hs : start < 2 ^ 60 - 1) (tr : Trace Unit Loc Nat) (s : St Unit Loc Nat) (he : exec (St.init (memOf start 0)) tr = some s)
    (hf : Follows Call tr) (hn : taken tr ≤ 2 ^ 63) (x : Loc) : ¬ RaceOn tr x :=
  free he hf (by
    show start + taken tr < maxU64
    simp only [maxU64]
    omega) x

/-- C184. On the sequence number itself there is never a race. -/
theorem C184_seq (start : Nat) : RaceFreeOn Call (memOf start 0) (fun _ => False) .seq := by
  rintro tr s _ _ hf ⟨i, j, _, ⟨t, a⟩, ⟨u, b⟩, hi, hj, _, ⟨wa, ta, wb, tb, ea, eb, _, hn⟩, _⟩
  have A : ∀ t, Allows ok next false (proj t tr) := fun t =>
    allows_follows (P := fun _ => True) (fun c hc s _ => ⟨call_ok c hc s, trivial⟩) trivial hf t
  have acc : ∀ {k t : Nat} {a : Act Unit Loc Nat} {w z : Bool}, tr[k]? = some (t, a) → a.access = some (.seq, w, z) → z = true := by
    intro k t a w z h ha
    have o := allows_at (A t) h
    cases a with
    | armw y v w' => cases y <;> simp_all [Act.access]
    | rd y v => cases y <;> simp_all [Act.access, ok]
    | wr y v => cases y <;> simp_all [Act.access, ok]
    | _ => exact o.elim
  exact hn ⟨acc hi ea, acc hj eb⟩

/-- After `2^64 - 3 - start` calls: goroutine 1 takes the number before the last, goroutine 0 the last; while goroutine 1 reads `scale`, goroutine 0 writes it. -/
def final : Trace Unit Loc Nat :=
  [(1, .armw .seq 18446744073709551613 18446744073709551614), (0, .armw .seq 18446744073709551614 18446744073709551615), (1, .rd .scale 0), (0, .rd .scale 0), (0, .wr .scale 1)]

/-- C184 is false. -/
theorem C184_claim_false : ¬ C184_claim := by
  intro h
  have hm := exec_many 18446744073709551613 0
  have hf : (exec (St.init (memOf (0 + 18446744073709551613) 0)) final).isSome = true := by decide +kernel
  obtain ⟨s, hs⟩ := Option.isSome_iff_exists.1 hf
  generalize hN : 18446744073709551613 = N at hm hs
  refine h 0 (by decide) .scale (many 0 N ++ final) s (by rw [exec_append, hm]; exact hs) (fun _ h => h.elim) ?_ ?_
  · intro t
    have pa : ∀ t, proj t (many 0 N ++ final) = proj t (many 0 N) ++ proj t final := fun t => by simp [proj]
    rw [pa]
    have hp := proj_many N 0
    match t with
    | 0 =>
      refine ⟨(List.range N).map (fun i => [.armw .seq (0 + i) (0 + i + 1), .rd .scale 0]) ++
        [[.armw .seq 18446744073709551614 18446744073709551615, .rd .scale 0, .wr .scale 1, .rd .scale 1]], ?_, ?_⟩
      · intro c hc
        rw [List.mem_append] at hc
        rcases hc with hc | hc
        · obtain ⟨i, hi, rfl⟩ := List.mem_map.1 hc
          have := List.mem_range.1 hi
          exact Call.new (by simp only [maxU64]; omega)
        · rw [List.mem_singleton.1 hc]
          exact Call.last (v := 18446744073709551614) (s := 0) (s' := 1) rfl
      · rw [List.flatten_append, hp.1]
        exact ⟨[.rd .scale 1], by rw [List.append_assoc]; rfl⟩
    | 1 =>
      refine ⟨[[.armw .seq 18446744073709551613 18446744073709551614, .rd .scale 0]], ?_, ?_⟩
      · intro c hc
        rw [List.mem_singleton.1 hc]
        exact Call.new (v := 18446744073709551613) (s := 0) (by decide)
      · rw [hp.2 1 (by decide)]
        exact List.prefix_rfl
    | t + 2 =>
      refine ⟨[], by simp, ?_⟩
      rw [hp.2 (t + 2) (by omega)]
      simp [proj, final]
  · have idx : ∀ k, (many 0 N ++ final)[(many 0 N).length + k]? = final[k]? := fun k => by
      rw [List.getElem?_append_right (by omega), Nat.add_sub_cancel_left]
    exact race_of_last (i := (many 0 N).length + 2) (j := (many 0 N).length + 4) (by omega) (by rw [idx]; rfl) (by rw [idx]; rfl) (by decide : (1 : Nat) ≠ 0) rfl rfl (.inr rfl)
      (by rw [show (many 0 N).length + 2 + 1 = (many 0 N).length + 3 by omega, List.drop_append, List.drop_eq_nil_of_le (by omega), Nat.add_sub_cancel_left]; rfl)

/-! ### A concrete case -/

/-- Two goroutines at the same time. -/
def two : Trace Unit Loc Nat := [(0, .armw .seq 7 8), (1, .armw .seq 8 9), (1, .rd .scale 0), (0, .rd .scale 0)]

example : (exec (St.init (memOf 7 0)) two).isSome = true ∧ taken two = 2 := by decide +kernel
example : Follows Call two := by
  intro t
  match t with
  | 0 => exact ⟨[_], by simpa using Call.new (v := 7) (s := 0) (by decide), by decide⟩
  | 1 => exact ⟨[_], by simpa using Call.new (v := 8) (s := 0) (by decide), by decide⟩
  | t + 2 => exact ⟨[], by simp, by simp [proj, two]⟩

end Gofer.Props.RaceUuid
