import Verif.Proof.GoPoolClose
import Mathlib.Data.List.Range

/-! # Properties of `GoPool` (pool/gopool/gopool.go) -/
namespace Gofer.Props.GoPool
open Gofer.GoPool
open Gofer.Count

/-! Runs for witnesses and examples. -/

/-- Is the state quiescent? -/
def quietB (cfg : Cfg) (s : St) : Bool :=
  (act cfg s .disp).isNone &&
  (List.range s.log.length).all (fun i => (act cfg s (.step i)).isNone) &&
  (List.range s.workers.length).all (fun w => (act cfg s (.work w)).isNone && (act cfg s (.quit w)).isNone && (act cfg s (.finish w)).isNone && (act cfg s (.panic w)).isNone) &&
  (List.range s.free.length).all (fun j => (act cfg s (.free j)).isNone && (act cfg s (.freeEnd j)).isNone && (act cfg s (.freePanic j)).isNone)

theorem quiet_of {cfg : Cfg} {s : St} (h : quietB cfg s = true) : Quiescent cfg s := by
  simp only [quietB, Bool.and_eq_true, List.all_eq_true, List.mem_range, Option.isNone_iff_eq_none] at h
  obtain ⟨⟨⟨hd, hs⟩, hw⟩, hf⟩ := h
  intro a hc ht
  cases a <;> simp only [isCall, Bool.true_eq_false, reduceCtorEq] at hc
  case step i =>
    by_cases hi : i < s.log.length
    · exact hs i hi
    · simp only [act]; split
      · rfl
      · rw [List.getElem?_eq_none (by omega)]; rfl
  case disp => exact hd
  case timer => exact absurd rfl ht
  case work w =>
    by_cases hi : w < s.workers.length
    · exact (hw w hi).1.1.1
    · simp only [act]; split
      · rfl
      · rw [List.getElem?_eq_none (by omega)]; rfl
  case quit w =>
    by_cases hi : w < s.workers.length
    · exact (hw w hi).1.1.2
    · simp only [act]; split
      · rfl
      · rw [List.getElem?_eq_none (by omega)]; rfl
  case finish w =>
    by_cases hi : w < s.workers.length
    · exact (hw w hi).1.2
    · simp only [act]; split
      · rfl
      · rw [List.getElem?_eq_none (by omega)]; rfl
  case panic w =>
    by_cases hi : w < s.workers.length
    · exact (hw w hi).2
    · simp only [act]; split
      · rfl
      · rw [List.getElem?_eq_none (by omega)]; rfl
  case free w =>
    by_cases hi : w < s.free.length
    · exact (hf w hi).1.1
    · simp only [act]; split
      · rfl
      · rw [List.getElem?_eq_none (by omega)]; rfl
  case freeEnd w =>
    by_cases hi : w < s.free.length
    · exact (hf w hi).1.2
    · simp only [act]; split
      · rfl
      · rw [List.getElem?_eq_none (by omega)]; rfl
  case freePanic w =>
    by_cases hi : w < s.free.length
    · exact (hf w hi).2
    · simp only [act]; split
      · rfl
      · rw [List.getElem?_eq_none (by omega)]; rfl

/-- Is there no `Close` and no `TurnOff`? -/
def noCloseB (as : List Act) : Bool := as.all fun a => match a with | .close | .turn _ => false | _ => true

theorem noClose_of {as : List Act} (h : noCloseB as = true) : NoClose as := by
  intro a ha
  have := List.all_eq_true.1 h a ha
  constructor
  · rintro rfl; cases this
  · rintro off rfl; cases this

/-- Does no `TryLock` of this run miss? -/
def noMissB (cfg : Cfg) : St → List Act → Bool
  | _, [] => true
  | s, a :: as => (match a with | .step i => (match s.log[i]? with | some c => decide (c.pc ≠ .tryl) || decide (s.disp ≠ .unlock) | none => true) | _ => true) &&
      (match act cfg s a with | some t => noMissB cfg t as | none => true)

theorem noMiss_of {cfg : Cfg} {s : St} {as : List Act} (h : noMissB cfg s as = true) : NoMiss cfg s as := by
  induction as generalizing s with
  | nil => trivial
  | cons a as ih =>
    simp only [noMissB, Bool.and_eq_true] at h
    refine ⟨?_, ?_⟩
    · rintro i c rfl hi hp hd
      have := h.1
      simp [hi, hp, hd] at this
    · intro t ht
      have := h.2
      rw [ht] at this
      exact ih this

/-- Call `i` makes `n` steps; the dispatcher makes `n` steps; worker `w` makes `n` steps. -/
def steps (i n : Nat) : List Act := List.replicate n (.step i)
def disps (n : Nat) : List Act := List.replicate n .disp
def works (w n : Nat) : List Act := List.replicate n (.work w)
/-- A whole `Go`, as call `i`. -/
def goes (i : Nat) : List Act := .go :: steps i 4

/-! ## C65 -/

/-- **C65**: in every run, also with `Close` and `TurnOff`, whatever was begun was given to a `Go` that took it, and was begun once. -/
theorem C65_at_most_once (cfg : Cfg) (as : List Act) (s : St) (h : exec cfg new as = some s) : s.started.Nodup ∧ ∀ i ∈ s.started, Accepted s i := by
  have inv := inv_exec inv_new h
  have key : ∀ i, s.started.count i ≤ accN s.log i := fun i => by
    have := inv.oc i
    unfold occ at this
    omega
  have le1 : ∀ i, accN s.log i ≤ 1 := by
    intro i
    unfold accN
    cases s.log[i]? with
    | none => simp
    | some c => cases h : acc c <;> simp [h]
  refine ⟨List.nodup_iff_count_le_one.2 fun i => Nat.le_trans (key i) (le1 i), ?_⟩
  intro i hi
  have h1 := key i
  have h2 := List.count_pos_iff.2 hi
  cases hc : s.log[i]? with
  | none => simp [accN, hc] at h1; omega
  | some c =>
    rw [accN_self hc] at h1
    have ha : acc c = true := by
      cases ha : acc c
      · rw [ha] at h1; simp at h1; omega
      · rfl
    refine ⟨c, hc, ?_⟩
    unfold acc at ha
    split at ha <;> simp_all

/-- Two functions, the second given to a pool that has been turned off, both begun. -/
example : ∃ s, exec ⟨1, 1, 8⟩ new (goes 0 ++ disps 9 ++ works 0 1 ++ [.turn true] ++ steps 1 2 ++ [.go] ++ steps 2 1 ++ [.free 0]) = some s ∧ s.started = [0, 2] := by
  have e : (exec ⟨1, 1, 8⟩ new (goes 0 ++ disps 9 ++ works 0 1 ++ [.turn true] ++ steps 1 2 ++ [.go] ++ steps 2 1 ++ [.free 0])).map (fun s => s.started) = some [0, 2] := by
    decide +kernel
  obtain ⟨s, hs, hl⟩ := Option.map_eq_some_iff.1 e
  exact ⟨s, hs, hl⟩

/-! ## C66 -/

/-- **C66**, the claim. -/
def C66_claim : Prop :=
  ∀ (cfg : Cfg) (as : List Act) (s : St), NoClose as → exec cfg new as = some s → running s ≤ max cfg.maxlimit cfg.minlimit

/-- `minlimit` 1, `maxlimit` 2: function 0 runs in the kept worker, 1 in an extra one; 0 ends; 2 gets another extra worker, and 3, since
`count` is 3, gets the kept worker out of the pool: three functions run. -/
def overRun : List Act :=
  goes 0 ++ disps 10 ++ works 0 1 ++ goes 1 ++ disps 9 ++ works 1 1 ++ [.finish 0] ++ works 0 3 ++
  goes 2 ++ disps 9 ++ works 2 1 ++ goes 3 ++ disps 7 ++ works 0 1

/-- **C66 is false.** -/
theorem C66_claim_false : ¬ C66_claim := by
  intro h
  have e : (exec ⟨1, 2, 8⟩ new overRun).map running = some 3 := by decide +kernel
  obtain ⟨s, hs, hr⟩ := Option.map_eq_some_iff.1 e
  have := h ⟨1, 2, 8⟩ overRun s (noClose_of (by decide +kernel)) hs
  rw [hr] at this
  exact absurd this (by decide)

/-- **C66, the part that holds.** Without `Close` and `TurnOff`, at most `maxlimit + minlimit` functions run at the same time; and at most
`minlimit` if `maxlimit` is not larger. Missing: the bound `maxlimit` (false, see above). -/
theorem C66_limit_partial (cfg : Cfg) (as : List Act) (s : St) (hn : NoClose as) (h : exec cfg new as = some s) :
    running s ≤ cfg.maxlimit + cfg.minlimit ∧ (cfg.maxArg ≤ cfg.minlimit → running s ≤ cfg.minlimit) := by
  have nc := (nc_new cfg).exec hn h
  have hr := nc.wk.runs
  have e : running s = s.workers.countP isRun := by simp only [running, nc.fr, List.countP_nil]; rfl
  rw [e]
  refine ⟨hr.1, fun hle => hr.2 ?_⟩
  unfold Cfg.maxlimit
  split <;> omega

/-- The bounds are met: one function runs in a pool with both limits 1, with a second one waiting. -/
example : ∃ s, exec ⟨1, 1, 8⟩ new (goes 0 ++ disps 10 ++ works 0 1 ++ goes 1 ++ disps 5) = some s ∧ NoClose (goes 0 ++ disps 10 ++ works 0 1 ++ goes 1 ++ disps 5) ∧ running s = 1 ∧ s.disp = .wait 1 := by
  have e : (exec ⟨1, 1, 8⟩ new (goes 0 ++ disps 10 ++ works 0 1 ++ goes 1 ++ disps 5)).map (fun s => (running s, s.disp)) = some (1, .wait 1) := by decide +kernel
  obtain ⟨s, hs, hl⟩ := Option.map_eq_some_iff.1 e
  simp only [Prod.mk.injEq] at hl
  exact ⟨s, hs, noClose_of (by decide +kernel), hl.1, hl.2⟩

/-! ## C67 -/

/-- **C67**, the claim. -/
def C67_claim : Prop :=
  ∀ (cfg : Cfg) (as : List Act) (s : St), NoClose as → exec cfg new as = some s → Quiescent cfg s → ∀ i, Accepted s i → i ∈ s.started

/-- The dispatcher has handed function 0 over and found `tnum` 0; before it unlocks the mutex, `Go(1)` puts its function into the queue
and does not get the lock. -/
def lostRun : List Act := goes 0 ++ disps 9 ++ goes 1 ++ disps 1 ++ works 0 1 ++ [.finish 0] ++ works 0 3

theorem lost : ∃ s, exec ⟨1, 1, 8⟩ new lostRun = some s ∧ Quiescent ⟨1, 1, 8⟩ s ∧ s.log[1]? = some ⟨.go, .ret⟩ ∧ s.started = [0] ∧ s.tnum = 1 := by
  have e : (exec ⟨1, 1, 8⟩ new lostRun).map (fun s => (quietB ⟨1, 1, 8⟩ s, s.log[1]?, s.started, s.tnum)) = some (true, some ⟨.go, .ret⟩, [0], 1) := by decide +kernel
  obtain ⟨s, hs, hl⟩ := Option.map_eq_some_iff.1 e
  simp only [Prod.mk.injEq] at hl
  exact ⟨s, hs, quiet_of hl.1, hl.2.1, hl.2.2.1, hl.2.2.2⟩

/-- **C67 is false**: a function stays in the queue, though the pool is idle. -/
theorem C67_claim_false : ¬ C67_claim := by
  intro h
  obtain ⟨s, hs, hq, hl, hst, _⟩ := lost
  have := h _ _ s (noClose_of (by decide +kernel)) hs hq 1 ⟨_, hl, rfl, .inr (.inr rfl)⟩
  rw [hst] at this
  exact absurd this (by decide)

/-- With `minlimit` 0 no race is needed: the second function, while the first one runs, waits for ever for a worker of the pool. -/
theorem C67_minlimit_zero : ∃ (as : List Act) (s : St), NoClose as ∧ NoMiss ⟨0, 1, 8⟩ new as ∧ exec ⟨0, 1, 8⟩ new as = some s ∧
    Quiescent ⟨0, 1, 8⟩ s ∧ Accepted s 1 ∧ 1 ∉ s.started := by
  have e : (exec ⟨0, 1, 8⟩ new (goes 0 ++ disps 9 ++ works 0 1 ++ goes 1 ++ disps 4 ++ [.finish 0] ++ works 0 2)).map
    (fun s => (quietB ⟨0, 1, 8⟩ s, s.log[1]?, s.started)) = some (true, some ⟨.go, .ret⟩, [0]) := by decide +kernel
  obtain ⟨s, hs, hl⟩ := Option.map_eq_some_iff.1 e
  simp only [Prod.mk.injEq] at hl
  refine ⟨_, s, noClose_of (by decide +kernel), noMiss_of (by decide +kernel), hs, quiet_of hl.1, ⟨_, hl.2.1, rfl, .inr (.inr rfl)⟩, ?_⟩
  rw [hl.2.2]; decide

/-- **C67, the part that holds.** If `minlimit` and the length of the queue are positive, and no `Go` does its `TryLock` while the
dispatcher is between its last look at `tnum` and its `Unlock`, then as soon as nothing moves any more, every accepted function has
been begun (and has ended). Missing: runs with such a `TryLock`, `minlimit` 0 (false, see above); `Close` is C68. -/
theorem C67_all_run_partial (cfg : Cfg) (hm : 1 ≤ cfg.minlimit) (hf : 1 ≤ cfg.funcLimit) (as : List Act) (s : St) (hn : NoClose as) (hmi : NoMiss cfg new as)
    (h : exec cfg new as = some s) (hq : Quiescent cfg s) : (∀ i, Accepted s i → i ∈ s.started) ∧ running s = 0 := by
  have nc := (nc_new cfg).exec hn h
  have aw := awake_exec (nc_new cfg) pre_new.aw hn hmi h
  exact (nc_quiet nc aw hm hf hq).2

/-- A run that meets the conditions: two functions in a pool of one worker. -/
example : ∃ (as : List Act) (s : St), NoClose as ∧ NoMiss ⟨1, 1, 8⟩ new as ∧ exec ⟨1, 1, 8⟩ new as = some s ∧ Quiescent ⟨1, 1, 8⟩ s ∧ s.started = [0, 1] := by
  have e : (exec ⟨1, 1, 8⟩ new (goes 0 ++ disps 10 ++ works 0 1 ++ goes 1 ++ disps 5 ++ [.finish 0] ++ works 0 3 ++ disps 6 ++ works 0 1 ++ [.panic 0] ++ works 0 3)).map
    (fun s => (quietB ⟨1, 1, 8⟩ s, s.started)) = some (true, [0, 1]) := by decide +kernel
  obtain ⟨s, hs, hl⟩ := Option.map_eq_some_iff.1 e
  simp only [Prod.mk.injEq] at hl
  exact ⟨_, s, noClose_of (by decide +kernel), noMiss_of (by decide +kernel), hs, quiet_of hl.1, hl.2⟩

/-! ## C68 -/

/-- **C68**, the claim; without the race of C67, so that only `Close` can be to blame. -/
def C68_claim : Prop :=
  ∀ (cfg : Cfg) (as : List Act) (s : St), 1 ≤ cfg.minlimit → 1 ≤ cfg.funcLimit → NoMiss cfg new as → exec cfg new as = some s → s.crash = false →
    Quiescent cfg s → ∀ i, Accepted s i → i ∈ s.started

/-- The function is in the channel of its worker; `Close` cancels the context, and the `select` of the worker takes `ctx.Done()`. -/
def dropRun : List Act := goes 0 ++ disps 10 ++ [.close] ++ steps 1 4 ++ [.quit 0]

/-- **C68 is false.** -/
theorem C68_claim_false : ¬ C68_claim := by
  intro h
  have e : (exec ⟨1, 1, 8⟩ new dropRun).map (fun s => (quietB ⟨1, 1, 8⟩ s, s.log[0]?, s.started, s.crash)) = some (true, some ⟨.go, .ret⟩, [], false) := by decide +kernel
  obtain ⟨s, hs, hl⟩ := Option.map_eq_some_iff.1 e
  simp only [Prod.mk.injEq] at hl
  have := h _ _ s (by decide) (by decide) (noMiss_of (by decide +kernel)) hs hl.2.2.2 (quiet_of hl.1) 0 ⟨_, hl.2.1, rfl, .inr (.inr rfl)⟩
  rw [hl.2.2.1] at this
  cases this

/-- The dispatcher waits for a worker for function 1, function 2 is in the queue; `Close` closes the pool: the dispatcher gets a nil
worker, panics and recovers. Neither 1 nor 2 is ever begun, and `NumUnExecu` stays 2. -/
theorem C68_dispatcher_panics : ∃ (as : List Act) (s : St), NoMiss ⟨1, 1, 8⟩ new as ∧ exec ⟨1, 1, 8⟩ new as = some s ∧ s.crash = false ∧
    Quiescent ⟨1, 1, 8⟩ s ∧ Accepted s 1 ∧ Accepted s 2 ∧ s.started = [0] ∧ s.tnum = 2 := by
  have e : (exec ⟨1, 1, 8⟩ new (goes 0 ++ disps 10 ++ works 0 1 ++ goes 1 ++ disps 5 ++ goes 2 ++ [.close] ++ steps 3 4 ++ disps 2 ++ [.finish 0] ++ works 0 2)).map
    (fun s => ((quietB ⟨1, 1, 8⟩ s, s.log[1]?, s.log[2]?), s.started, s.tnum, s.crash)) = some ((true, some ⟨.go, .ret⟩, some ⟨.go, .ret⟩), [0], 2, false) := by decide +kernel
  obtain ⟨s, hs, hl⟩ := Option.map_eq_some_iff.1 e
  simp only [Prod.mk.injEq] at hl
  obtain ⟨⟨h1, h2, h3⟩, h4, h5, h6⟩ := hl
  exact ⟨_, s, noMiss_of (by decide +kernel), hs, h6, quiet_of h1, ⟨_, h2, rfl, .inr (.inr rfl)⟩, ⟨_, h3, rfl, .inr (.inr rfl)⟩, h4, h5⟩

/-- **C68, the part that holds.** If the write `g.close = true` of `Close` comes at a calm moment (`s` is the state after it, before the
context is cancelled), and no `TryLock` misses, then as soon as nothing moves any more and the process has not crashed, every accepted
function has been begun, whatever calls of `Go`, `Close` and `TurnOff` came before and after. Missing: other moments (false, see above). -/
theorem C68_close_partial (cfg : Cfg) (as bs : List Act) (s t : St) (ha : exec cfg new as = some s) (hm : NoMiss cfg new as)
    (hf : s.flag = true) (hc : s.close = true) (hn : s.cancelled = false) (hp : s.poolClosed = false) (calm : Calm s)
    (hb : exec cfg s bs = some t) (hmb : NoMiss cfg s bs) (hcr : t.crash = false) (hq : Quiescent cfg t) : ∀ i, Accepted t i → i ∈ t.started := by
  obtain ⟨c1, c2, c3⟩ := calm
  have cl : CL s := by
    refine ⟨pre_exec pre_new hm ha hp hn, hc, hf, fun i c hi => c3 c (List.mem_of_getElem? hi), ?_, fun w k hk => c2 k (List.mem_of_getElem? hk)⟩
    cases hd : s.disp <;> rw [hd] at c1 <;> first
      | rfl
      | cases c1
  intro i hi
  exact cl_quiet (cl_exec cl hmb hb) hcr hq hi

/-- Function 0 is running, 1 and 2 are in the queue, when `Close` comes; they are all begun. -/
example : ∃ (as bs : List Act) (s t : St), exec ⟨1, 1, 8⟩ new as = some s ∧ NoMiss ⟨1, 1, 8⟩ new as ∧ s.flag = true ∧ s.close = true ∧ s.cancelled = false ∧
    s.poolClosed = false ∧ Calm s ∧ s.q = [1, 2] ∧ exec ⟨1, 1, 8⟩ s bs = some t ∧ NoMiss ⟨1, 1, 8⟩ s bs ∧ t.crash = false ∧ Quiescent ⟨1, 1, 8⟩ t ∧ t.started = [0, 1, 2] := by
  have e : (exec ⟨1, 1, 8⟩ new (goes 0 ++ disps 10 ++ works 0 1 ++ goes 1 ++ goes 2 ++ [.close] ++ steps 3 2)).map
    (fun s => (s.flag && s.close && !s.cancelled && !s.poolClosed && decide (s.disp = .range) && decide (s.q = [1, 2]) && s.workers.all (fun k => k.buf.isNone) &&
      s.log.all (fun c => decide (c.pc ≠ .tset)) && noMissB ⟨1, 1, 8⟩ s (steps 3 2 ++ disps 8 ++ [.free 0, .free 1, .freeEnd 0, .freeEnd 1, .finish 0] ++ works 0 2),
      (exec ⟨1, 1, 8⟩ s (steps 3 2 ++ disps 8 ++ [.free 0, .free 1, .freeEnd 0, .freeEnd 1, .finish 0] ++ works 0 2)).map (fun t => (t.crash, quietB ⟨1, 1, 8⟩ t, t.started)))) =
    some (true, some (false, true, [0, 1, 2])) := by decide +kernel
  obtain ⟨s, hs, hl⟩ := Option.map_eq_some_iff.1 e
  simp only [Prod.mk.injEq, Bool.and_eq_true, decide_eq_true_eq, Bool.not_eq_true', List.all_eq_true, Option.isNone_iff_eq_none] at hl
  obtain ⟨⟨⟨⟨⟨⟨⟨⟨⟨h1, h2⟩, h3⟩, h4⟩, h5⟩, h6⟩, h7⟩, h8⟩, h10⟩, h9⟩ := hl
  obtain ⟨t, ht, hl⟩ := Option.map_eq_some_iff.1 h9
  simp only [Prod.mk.injEq] at hl
  refine ⟨_, _, s, t, hs, noMiss_of (by decide +kernel), h1, h2, h3, h4, ⟨?_, h7, h8⟩, h6, ht, noMiss_of h10, hl.1, quiet_of hl.2.1, hl.2.2⟩
  rw [h5]; trivial

/-! ## C98 -/

/-- **C98**, the claim: as soon as nothing moves any more, every `Go` has returned. -/
def C98_claim : Prop :=
  ∀ (cfg : Cfg) (as : List Act) (s : St), NoClose as → exec cfg new as = some s → Quiescent cfg s → ∀ (i : Nat) (c : Call), s.log[i]? = some c → c.pc = .ret

theorem stuck (cfg : Cfg) (as : List Act) (i : Nat) (h : (exec cfg new as).map (fun s => (quietB cfg s, s.log[i]?)) = some (true, some ⟨.go, .send⟩)) :
    ∃ s, exec cfg new as = some s ∧ Quiescent cfg s ∧ s.log[i]? = some ⟨.go, .send⟩ := by
  obtain ⟨s, hs, hl⟩ := Option.map_eq_some_iff.1 h
  simp only [Prod.mk.injEq] at hl
  exact ⟨s, hs, quiet_of hl.1, hl.2⟩

/-- **C98 is false**: with `FuncLimit` 1, after a function was left in the queue as in C67, the next `Go` blocks, in a pool that is idle. -/
theorem C98_claim_false : ¬ C98_claim := by
  intro h
  obtain ⟨s, hs, hq, hl⟩ := stuck ⟨1, 1, 1⟩ (lostRun ++ [.go] ++ steps 2 1) 2 (by decide +kernel)
  have := h _ _ s (noClose_of (by decide +kernel)) hs hq 2 _ hl
  cases this

/-- With `FuncLimit` 0 the first `Go` blocks; with `minlimit` 0 a later one does, without any race. -/
theorem C98_zero : (∃ (as : List Act) (s : St), NoClose as ∧ NoMiss ⟨4, 8, 0⟩ new as ∧ exec ⟨4, 8, 0⟩ new as = some s ∧ Quiescent ⟨4, 8, 0⟩ s ∧ s.log[0]? = some ⟨.go, .send⟩) ∧
    ∃ (as : List Act) (s : St), NoClose as ∧ NoMiss ⟨0, 1, 1⟩ new as ∧ exec ⟨0, 1, 1⟩ new as = some s ∧ Quiescent ⟨0, 1, 1⟩ s ∧ s.log[3]? = some ⟨.go, .send⟩ := by
  constructor
  · obtain ⟨s, hs, hq, hl⟩ := stuck ⟨4, 8, 0⟩ ([.go] ++ steps 0 1) 0 (by decide +kernel)
    exact ⟨_, s, noClose_of (by decide +kernel), noMiss_of (by decide +kernel), hs, hq, hl⟩
  · obtain ⟨s, hs, hq, hl⟩ := stuck ⟨0, 1, 1⟩ (goes 0 ++ disps 9 ++ works 0 1 ++ goes 1 ++ disps 4 ++ goes 2 ++ [.go] ++ steps 3 1 ++ [.finish 0] ++ works 0 2) 3 (by decide +kernel)
    exact ⟨_, s, noClose_of (by decide +kernel), noMiss_of (by decide +kernel), hs, hq, hl⟩

/-- **C98, the part that holds**, under the conditions of C67. Missing: as there. -/
theorem C98_go_returns_partial (cfg : Cfg) (hm : 1 ≤ cfg.minlimit) (hf : 1 ≤ cfg.funcLimit) (as : List Act) (s : St) (hn : NoClose as) (hmi : NoMiss cfg new as)
    (h : exec cfg new as = some s) (hq : Quiescent cfg s) : ∀ (i : Nat) (c : Call), s.log[i]? = some c → c.pc = .ret :=
  (nc_quiet ((nc_new cfg).exec hn h) (awake_exec (nc_new cfg) pre_new.aw hn hmi h) hm hf hq).1

/-- A `Go` that waits for room in the queue, and gets it. -/
example : ∃ (as bs : List Act) (s t : St), NoClose (as ++ bs) ∧ NoMiss ⟨1, 1, 1⟩ new (as ++ bs) ∧ exec ⟨1, 1, 1⟩ new as = some s ∧ act ⟨1, 1, 1⟩ s (.step 1) = none ∧
    s.log[1]? = some ⟨.go, .send⟩ ∧ exec ⟨1, 1, 1⟩ s bs = some t ∧ Quiescent ⟨1, 1, 1⟩ t ∧ t.log[1]? = some ⟨.go, .ret⟩ := by
  have e : (exec ⟨1, 1, 1⟩ new (goes 0 ++ [.go] ++ steps 1 1)).map (fun s => ((act ⟨1, 1, 1⟩ s (.step 1)).isNone, s.log[1]?,
      (exec ⟨1, 1, 1⟩ s (disps 1 ++ steps 1 3 ++ disps 7 ++ works 0 1 ++ [.finish 0] ++ works 0 3 ++ disps 11 ++ works 0 1 ++ [.finish 0] ++ works 0 3)).map (fun t => (quietB ⟨1, 1, 1⟩ t, t.log[1]?)))) =
      some (true, some ⟨.go, .send⟩, some (true, some ⟨.go, .ret⟩)) := by decide +kernel
  obtain ⟨s, hs, hl⟩ := Option.map_eq_some_iff.1 e
  simp only [Prod.mk.injEq, Option.isNone_iff_eq_none] at hl
  obtain ⟨h1, h2, h3⟩ := hl
  obtain ⟨t, ht, hl⟩ := Option.map_eq_some_iff.1 h3
  simp only [Prod.mk.injEq] at hl
  exact ⟨_, _, s, t, noClose_of (by decide +kernel), noMiss_of (by decide +kernel), hs, h1, h2, ht, quiet_of hl.1, hl.2⟩

/-! ## C99 -/

/-- **C99**, the claim. -/
def C99_claim : Prop := ∀ (cfg : Cfg) (as : List Act) (s : St), exec cfg new as = some s → s.crash = false

/-- **C99 is false**: after `TurnOff(true)` a function runs in a bare goroutine. -/
theorem C99_claim_false : ¬ C99_claim := by
  intro h
  have e : (exec ⟨1, 1, 8⟩ new ([.turn true] ++ steps 0 2 ++ [.go] ++ steps 1 1 ++ [.free 0, .freePanic 0])).map (fun s => s.crash) = some true := by decide +kernel
  obtain ⟨s, hs, hl⟩ := Option.map_eq_some_iff.1 e
  have := h _ _ s hs
  rw [hl] at this
  cases this

/-- It is also false for functions that a worker runs: function 0 panics, its worker, in the deferred function, has read the flag; `Close`
closes the pool; the send of the worker panics again, and nobody recovers. -/
theorem C99_close_race : ∃ (as : List Act) (s : St), exec ⟨1, 1, 8⟩ new as = some s ∧ s.free = [] ∧ s.crash = true := by
  have e : (exec ⟨1, 1, 8⟩ new (goes 0 ++ disps 10 ++ works 0 1 ++ [.panic 0] ++ works 0 2 ++ [.close] ++ steps 1 4 ++ works 0 1)).map (fun s => (s.free, s.crash)) = some ([], true) := by
    decide +kernel
  obtain ⟨s, hs, hl⟩ := Option.map_eq_some_iff.1 e
  simp only [Prod.mk.injEq] at hl
  exact ⟨_, s, hs, hl.1, hl.2⟩

/-- **C99, the part that holds**: without `Close` and `TurnOff`, the process survives every panic of a function, every function runs in a
worker, and the worker goes on: it can return to the pool (or end, if it is beyond `minlimit`). Missing: runs with them (false, see
above). -/
theorem C99_panic_partial (cfg : Cfg) (as : List Act) (s : St) (hn : NoClose as) (h : exec cfg new as = some s) :
    s.crash = false ∧ s.free = [] ∧ ∀ (w : Nat) (k : Worker) (f : Nat), s.workers[w]? = some k → k.pc = .run f →
      ∃ (bs : List Act) (t : St) (k' : Worker), exec cfg s (.panic w :: bs) = some t ∧ t.workers[w]? = some k' ∧ ((k'.pc = .sel ∧ w ∈ t.pool) ∨ (k'.pc = .dead ∧ cfg.minlimit < k'.id)) := by
  have nc := (nc_new cfg).exec hn h
  refine ⟨nc.cr, nc.fr, ?_⟩
  intro w k f hk hp
  have a1 : act cfg s (.panic w) = some (s.wset w { k with pc := .put1 true }) := by simp [act, nc.cr, hk, hp]
  have g1 : (s.wset w { k with pc := .put1 true }).workers[w]? = some { k with pc := .put1 true } := get_set_self hk
  have a2 : act cfg (s.wset w { k with pc := .put1 true }) (.work w) =
      some { (s.wset w { k with pc := .put1 true }).wset w { k with pc := .put2 true } with count := s.count - 1 } := by
    simp only [act, g1, Option.bind_some, stepWork]
    simp [St.wset, nc.cr]
  have nc2 := (nc.act (by simp) a1).act (by simp) a2
  generalize hu : ({ (s.wset w { k with pc := .put1 true }).wset w { k with pc := .put2 true } with count := s.count - 1 } : St) = u at a2 nc2
  have g2 : u.workers[w]? = some { k with pc := .put2 true } := by rw [← hu]; exact get_set_self g1
  by_cases hm : k.id ≤ cfg.minlimit
  · have a3 : act cfg u (.work w) = some (u.wset w { k with pc := .put3 true }) := by
      simp [act, nc2.cr, g2, stepWork, hm, nc2.flag]
    have nc3 := nc2.act (by simp) a3
    have g3 : (u.wset w { k with pc := .put3 true }).workers[w]? = some { k with pc := .put3 true } := get_set_self g2
    generalize u.wset w { k with pc := .put3 true } = v at a3 nc3 g3
    have hw : w ∉ v.pool := by
      intro hw
      obtain ⟨k', hk', _, hp', _⟩ := nc3.wk.pl w hw
      rw [g3] at hk'; cases hk'; cases hp'
    have hr := nc3.wk.room g3 hm hw
    have a4 : act cfg v (.work w) = some { v.wset w { k with pc := .sel } with pool := v.pool ++ [w] } := by
      simp [act, nc3.cr, g3, stepWork, nc3.pc, hr]
    refine ⟨[.work w, .work w, .work w], { v.wset w { k with pc := .sel } with pool := v.pool ++ [w] }, { k with pc := .sel }, ?_, get_set_self g3, .inl ⟨rfl, ?_⟩⟩
    · simp only [exec, a1, a2, a3, a4, Option.bind_some]
    · simp
  · have a3 : act cfg u (.work w) = some (u.wset w { k with pc := .dead }) := by
      simp [act, nc2.cr, g2, stepWork, hm]
    refine ⟨[.work w, .work w], u.wset w { k with pc := .dead }, { k with pc := .dead }, ?_, get_set_self g2, .inr ⟨rfl, by simpa using hm⟩⟩
    simp only [exec, a1, a2, a3, Option.bind_some]

/-- A function that runs in a worker. -/
example : ∃ s, exec ⟨1, 1, 8⟩ new (goes 0 ++ disps 10 ++ works 0 1) = some s ∧ NoClose (goes 0 ++ disps 10 ++ works 0 1) ∧ s.workers[0]? = some ⟨1, none, .run 0⟩ := by
  have e : (exec ⟨1, 1, 8⟩ new (goes 0 ++ disps 10 ++ works 0 1)).map (fun s => s.workers[0]?) = some (some ⟨1, none, .run 0⟩) := by decide +kernel
  obtain ⟨s, hs, hl⟩ := Option.map_eq_some_iff.1 e
  exact ⟨s, hs, noClose_of (by decide +kernel), hl⟩

/-! ## C100 -/

/-- **C100**, the claim. -/
def C100_claim : Prop := ∀ (cfg : Cfg) (as : List Act) (s : St) (i : Nat) (c : Call), exec cfg new as = some s → s.log[i]? = some c → c.pc ≠ .panicked

/-- **C100 is false**: a `Go` that looked at `close` before `Close` and sends when the ten seconds are over. (It may have been blocked by
the full queue all the time.) -/
theorem C100_claim_false : ¬ C100_claim := by
  intro h
  have e : (exec ⟨1, 1, 8⟩ new ([.go] ++ steps 0 1 ++ [.close] ++ steps 1 4 ++ [.timer] ++ steps 0 1)).map (fun s => s.log[0]?) = some (some ⟨.go, .panicked⟩) := by decide +kernel
  obtain ⟨s, hs, hl⟩ := Option.map_eq_some_iff.1 e
  exact h _ _ s 0 _ hs hl rfl

theorem qc_tr {cfg : Cfg} {s t : St} (ht : Tr cfg s t) (h : ∀ (i : Nat) (c : Call), s.log[i]? = some c → c.pc ≠ .panicked) (hq : t.qClosed = false) :
    s.qClosed = false ∧ ∀ (i : Nat) (c : Call), t.log[i]? = some c → c.pc ≠ .panicked := by
  have key : ∀ {j : Nat} {c' : Call} {pc : Pc}, pc ≠ .panicked →
      ∀ (i : Nat) (c : Call), (s.log.set j { c' with pc := pc })[i]? = some c → c.pc ≠ .panicked := by
    intro j c' pc hk i c hi
    replace hi := get_set_cases hi
    rcases hi with ⟨rfl, rfl⟩ | ⟨_, hi⟩
    · exact hk
    · exact h i c hi
  cases ht
  case sendP i c hi hp hc => simp only [St.goto] at hq; rw [hc] at hq; cases hq
  case tchk i c pc hi hp hc => exact ⟨hq, key (by rcases hc with rfl | ⟨rfl, _⟩ <;> simp)⟩
  case timer => cases hq
  all_goals first
    | exact ⟨hq, h⟩
    | exact ⟨hq, key (by simp)⟩

theorem qc_act {cfg : Cfg} {s t : St} {a : Act} (h : act cfg s a = some t) (hc : isCall a = false) (ht : a ≠ .timer) : t.qClosed = s.qClosed := by
  unfold act at h
  split at h
  · cases h
  cases a <;> simp only at h <;> try (cases hc; done)
  case step i =>
    obtain ⟨c, hi, hs⟩ := Option.bind_eq_some_iff.1 h
    unfold stepCall at hs
    cases hp : c.pc <;> simp only [hp] at hs <;> (repeat' split at hs) <;> cases hs <;> rfl
  case disp =>
    unfold stepDisp at h
    cases hp : s.disp <;> simp only [hp] at h <;> (repeat' split at h) <;> cases h <;> rfl
  case work w =>
    obtain ⟨k, hk, hs⟩ := Option.bind_eq_some_iff.1 h
    unfold stepWork at hs
    cases hp : k.pc <;> simp only [hp] at hs <;> (repeat' split at hs) <;> cases hs <;> rfl
  case timer => exact absurd rfl ht
  all_goals
    obtain ⟨k, hk, hs⟩ := Option.bind_eq_some_iff.1 h
    (repeat' split at hs) <;> cases hs <;> rfl

/-- **C100, the part that holds**: as long as the queue has not been closed, no `Go` has panicked; and it is closed only ten seconds after
`Close`. Missing: later (false, see above). -/
theorem C100_go_panic_partial (cfg : Cfg) (as : List Act) (s : St) (i : Nat) (c : Call) (ht : .timer ∉ as) (h : exec cfg new as = some s) (hi : s.log[i]? = some c) :
    c.pc ≠ .panicked := by
  suffices H : ∀ (s0 : St), (s0.qClosed = false ∧ ∀ (i : Nat) (c : Call), s0.log[i]? = some c → c.pc ≠ .panicked) → exec cfg s0 as = some s →
      ∀ (i : Nat) (c : Call), s.log[i]? = some c → c.pc ≠ .panicked from
    H new ⟨rfl, by simp [new]⟩ h i c hi
  clear h hi i c
  intro s0 hp h
  induction as generalizing s0 with
  | nil => simp only [exec, Option.some.injEq] at h; subst h; exact hp.2
  | cons a as ih =>
    simp only [exec] at h
    cases ha : act cfg s0 a with
    | none => simp [ha] at h
    | some u =>
      simp only [ha, Option.bind_some] at h
      refine ih (fun hm => ht (List.mem_cons_of_mem _ hm)) u ?_ h
      have hna : a ≠ .timer := fun e => ht (e ▸ List.mem_cons_self)
      cases hca : isCall a
      · have tr := tr_act ha hca
        have hq : u.qClosed = false := by
          rw [qc_act ha hca hna, hp.1]
        exact ⟨hq, (qc_tr tr hp.2 hq).2⟩
      · obtain ⟨_, c, hcc, rfl⟩ := start_act ha hca
        refine ⟨hp.1, ?_⟩
        intro i e hi
        replace hi := get_app hi
        rcases hi with ⟨hi, _⟩ | ⟨_, rfl⟩
        · exact hp.2 i e hi
        · rcases hcc with ⟨_, rfl⟩ | ⟨_, rfl⟩ | ⟨off, _, rfl⟩ <;> simp

/-- A run with `Close` and many calls after it, without the ten seconds. -/
example : ∃ s, exec ⟨1, 1, 8⟩ new ([.go] ++ steps 0 1 ++ [.close] ++ steps 1 4 ++ steps 0 3 ++ [.go] ++ steps 2 1) = some s ∧ s.log = [⟨.go, .ret⟩, ⟨.close, .ret⟩, ⟨.go, .ret⟩] := by
  have e : (exec ⟨1, 1, 8⟩ new ([.go] ++ steps 0 1 ++ [.close] ++ steps 1 4 ++ steps 0 3 ++ [.go] ++ steps 2 1)).map (fun s => s.log) = some [⟨.go, .ret⟩, ⟨.close, .ret⟩, ⟨.go, .ret⟩] := by
    decide +kernel
  obtain ⟨s, hs, hl⟩ := Option.map_eq_some_iff.1 e
  exact ⟨s, hs, hl⟩

/-! ## C101 -/

/-- **C101**, the claim: `NumUnExecu` is never negative. -/
def C101_claim : Prop := ∀ (cfg : Cfg) (as : List Act) (s : St), NoClose as → exec cfg new as = some s → 0 ≤ s.tnum

/-- **C101 is false**: `Go(0)` is about to lock when the dispatcher started by `Go(1)` takes both functions and ends; now `Go(0)` starts
another dispatcher, with an empty queue; it takes function 2 before `Go(2)` has counted it. -/
theorem C101_claim_false : ¬ C101_claim := by
  intro h
  have e : (exec ⟨1, 1, 8⟩ new ([.go] ++ steps 0 3 ++ goes 1 ++ disps 8 ++ works 0 1 ++ [.finish 0] ++ works 0 3 ++ disps 11 ++ works 0 1 ++ [.finish 0] ++ works 0 3 ++
    steps 0 1 ++ [.go] ++ steps 2 2 ++ disps 8)).map (fun s => s.tnum) = some (-1) := by decide +kernel
  obtain ⟨s, hs, hl⟩ := Option.map_eq_some_iff.1 e
  have := h _ _ s (noClose_of (by decide +kernel)) hs
  rw [hl] at this
  exact absurd this (by decide)

theorem unstarted_perm {cfg : Cfg} {s : St} (nc : NC cfg s) (hd : ∀ x, holds x s.disp = false) (hb : ∀ (w : Nat) (k : Worker), s.workers[w]? = some k → k.buf = none) :
    (unstarted s).length = s.q.length := by
  have hoc : ∀ x, s.q.count x + s.started.count x = accN s.log x := by
    intro x
    have h1 := nc.oc x
    have h3 : s.workers.countP (bufIs x) = 0 := by
      rw [List.countP_eq_zero]
      intro k hk
      obtain ⟨w, hw⟩ := List.mem_iff_getElem?.1 hk
      simp [bufIs, hb w k hw]
    unfold occ at h1
    rw [hd, h3, nc.fr] at h1
    simpa using h1
  have le1 : ∀ i, accN s.log i ≤ 1 := by
    intro i
    unfold accN
    cases s.log[i]? with
    | none => simp
    | some c => cases h : acc c <;> simp [h]
  have hacc : ∀ i, taken s.log[i]? = true ↔ accN s.log i = 1 := by
    intro i
    unfold accN
    cases hc : s.log[i]? with
    | none => simp [taken]
    | some c =>
      obtain ⟨k, p⟩ := c
      cases k <;> cases p <;> simp [acc, taken]
  refine List.Perm.length_eq ((List.perm_ext_iff_of_nodup (List.nodup_range.filter _) (List.nodup_iff_count_le_one.2 fun i => ?_)).2 fun i => ?_)
  · have := hoc i; have := le1 i; omega
  · have h1 := hoc i
    have h2 := le1 i
    simp only [unstarted, List.mem_filter, List.mem_range, Bool.and_eq_true, hacc, Bool.not_eq_true', List.contains_eq_mem, decide_eq_false_iff_not]
    constructor
    · rintro ⟨_, h3, h4⟩
      have := List.count_eq_zero.2 h4
      exact List.count_pos_iff.1 (by omega)
    · intro hi
      have h3 := List.count_pos_iff.2 hi
      refine ⟨?_, by omega, List.count_eq_zero.1 (by omega)⟩
      apply Classical.byContradiction
      intro hlt
      rw [accN, List.getElem?_eq_none (by omega)] at h1
      simp at h1; omega

/-- **C101, the part that holds**: with a positive `minlimit` and without `Close` and `TurnOff`, as soon as nothing moves any more,
`NumUnExecu` is the number of accepted functions that have not begun (so it is not negative), even if some were left in the queue
as in C67. Missing: while calls are under way (false, see above). -/
theorem C101_unexecuted_partial (cfg : Cfg) (hm : 1 ≤ cfg.minlimit) (as : List Act) (s : St) (hn : NoClose as) (h : exec cfg new as = some s) (hq : Quiescent cfg s) :
    s.tnum = (unstarted s).length := by
  have nc := (nc_new cfg).exec hn h
  have h3 := hq .disp rfl (by simp)
  have hd := nc_disp nc hm (fun w => hq (.work w) rfl (by simp)) (fun w => hq (.finish w) rfl (by simp)) h3
  have hb : ∀ (w : Nat) (k : Worker), s.workers[w]? = some k → k.buf = none :=
    fun w k hk => (nc_worker nc hk (hq (.work w) rfl (by simp)) (hq (.finish w) rfl (by simp)) h3).1
  have hinc : s.log.countP atInc = 0 := by
    rw [List.countP_eq_zero]
    intro c hc
    obtain ⟨i, hi⟩ := List.mem_iff_getElem?.1 hc
    have := hq (.step i) rfl (by simp)
    cases hp : c.pc <;> simp [atInc, hp, isInc]
    simp [act, nc.cr, hi, stepCall, hp] at this
  rw [unstarted_perm nc (by intro x; rcases hd with hd | ⟨hd, _⟩ <;> rw [hd] <;> rfl) hb]
  have := nc.tn
  unfold Tn at this
  rw [hinc] at this
  rcases hd with hd | ⟨hd, _⟩ <;> rw [hd] at this <;> simp [mid] at this <;> exact this

/-- In the run of C67, one function is left, and `NumUnExecu` says so. -/
example : ∃ s, exec ⟨1, 1, 8⟩ new lostRun = some s ∧ NoClose lostRun ∧ Quiescent ⟨1, 1, 8⟩ s ∧ s.tnum = 1 := by
  obtain ⟨s, h1, h2, _, _, h3⟩ := lost
  exact ⟨s, h1, noClose_of (by decide +kernel), h2, h3⟩

/-! ## C102 -/

/-- **C102**: without `Close` and `TurnOff`, a worker is never blocked in `put`: whenever one is before `g.pool <- f`, there is room in the
channel; and the dispatcher is never blocked in `add`, nor does it ever get a nil worker. -/
theorem C102_put_never_blocks (cfg : Cfg) (as : List Act) (s : St) (hn : NoClose as) (h : exec cfg new as = some s) :
    (∀ (w : Nat) (k : Worker) (d : Bool), s.workers[w]? = some k → k.pc = .put3 d → s.pool.length < cfg.minlimit ∧ (act cfg s (.work w)).isSome) ∧
    (∀ f w, s.disp = .add f w → (act cfg s .disp).isSome) ∧
    ∀ f, s.disp = .wait f → ∀ t, act cfg s .disp = some t → ∃ w, t.disp = .add f w := by
  have nc := (nc_new cfg).exec hn h
  refine ⟨?_, ?_, ?_⟩
  · intro w k d hk hp
    have hw : w ∉ s.pool := by
      intro hw
      obtain ⟨k', hk', _, hp', _⟩ := nc.wk.pl w hw
      rw [hk] at hk'; cases hk'; rw [hp] at hp'; cases hp'
    have hr := nc.wk.room hk (nc.wk.p3 w k d hk hp) hw
    exact ⟨hr, by simp [act, nc.cr, hk, stepWork, hp, nc.pc, hr]⟩
  · intro f w hd
    obtain ⟨k, hk, hb, _⟩ := nc.wk.ad f w hd
    simp [act, nc.cr, stepDisp, hd, hk, hb]
  · intro f hd t ht
    cases hp : s.pool with
    | nil => simp [act, nc.cr, stepDisp, hd, hp, nc.pc] at ht
    | cons w p =>
      simp only [act, nc.cr, stepDisp, hd, hp, Bool.false_eq_true, if_false, Option.some.injEq] at ht
      exact ⟨w, by rw [← ht]⟩

/-- A worker before its send. -/
example : ∃ s, exec ⟨1, 1, 8⟩ new (goes 0 ++ disps 10 ++ works 0 1 ++ [.panic 0] ++ works 0 2) = some s ∧ NoClose (goes 0 ++ disps 10 ++ works 0 1 ++ [.panic 0] ++ works 0 2) ∧
    s.workers[0]? = some ⟨1, none, .put3 true⟩ := by
  have e : (exec ⟨1, 1, 8⟩ new (goes 0 ++ disps 10 ++ works 0 1 ++ [.panic 0] ++ works 0 2)).map (fun s => s.workers[0]?) = some (some ⟨1, none, .put3 true⟩) := by decide +kernel
  obtain ⟨s, hs, hl⟩ := Option.map_eq_some_iff.1 e
  exact ⟨s, hs, noClose_of (by decide +kernel), hl⟩

/-! ## C103 -/

/-- **C103**, the claim: after `Close`, when the queue has been closed and is empty, the dispatcher ends: it calls `_funcn` again only
finitely often. -/
def C103_claim : Prop :=
  ∀ (cfg : Cfg) (as : List Act) (s : St), exec cfg new as = some s → s.crash = false → s.qClosed = true → s.q = [] → ∃ n t, exec cfg s (disps n) = some t ∧ t.disp = .idle

/-- The dispatcher has lost function 1 as in C68 and has not counted it down; a `Go` that looked at `close` before starts another
dispatcher; ten seconds later the queue is closed: the dispatcher calls itself for ever, until the stack is full. -/
def spinRun : List Act :=
  goes 0 ++ disps 10 ++ works 0 1 ++ goes 1 ++ disps 5 ++ [.go] ++ steps 2 1 ++ [.close] ++ steps 3 4 ++ disps 2 ++ steps 2 3 ++ disps 3 ++ [.timer]

theorem C103_spins : ∃ s, exec ⟨1, 1, 8⟩ new spinRun = some s ∧ s.crash = false ∧ s.qClosed = true ∧ s.q = [] ∧ s.disp = .range ∧ exec ⟨1, 1, 8⟩ s (disps 2) = some s := by
  have e : (exec ⟨1, 1, 8⟩ new spinRun).map (fun s => !s.crash && s.qClosed && decide (s.q = []) && decide (s.disp = .range) && decide (exec ⟨1, 1, 8⟩ s (disps 2) = some s)) = some true := by
    decide +kernel
  obtain ⟨s, hs, hl⟩ := Option.map_eq_some_iff.1 e
  simp only [Bool.and_eq_true, Bool.not_eq_true', decide_eq_true_eq] at hl
  obtain ⟨⟨⟨⟨h1, h2⟩, h3⟩, h4⟩, h5⟩ := hl
  exact ⟨s, hs, h1, h2, h3, h4, h5⟩

/-- **C103 is false.** -/
theorem C103_claim_false : ¬ C103_claim := by
  intro h
  obtain ⟨s, hs, h1, h2, h3, h4, h5⟩ := C103_spins
  obtain ⟨n, t, ht, hd⟩ := h _ _ s hs h1 h2 h3
  obtain ⟨u, hu, hu'⟩ : ∃ u, act ⟨1, 1, 8⟩ s .disp = some u ∧ act ⟨1, 1, 8⟩ u .disp = some s := by
    simp only [disps, List.replicate, exec] at h5
    obtain ⟨u, hu, h6⟩ := Option.bind_eq_some_iff.1 h5
    obtain ⟨v, hv, h7⟩ := Option.bind_eq_some_iff.1 h6
    cases h7
    exact ⟨u, hu, hv⟩
  have hud : u.disp = .last := by
    simp [act, h1, stepDisp, h4, h3, h2] at hu
    rw [← hu]
  have key : ∀ n t, (exec ⟨1, 1, 8⟩ s (disps n) = some t → t = s ∨ t = u) ∧ (exec ⟨1, 1, 8⟩ u (disps n) = some t → t = s ∨ t = u) := by
    intro n
    induction n with
    | zero => intro t; constructor <;> intro h <;> cases h <;> simp
    | succ n ih =>
      intro t
      constructor
      · intro h
        simp only [disps, List.replicate_succ, exec, hu, Option.bind_some] at h
        exact (ih t).2 h
      · intro h
        simp only [disps, List.replicate_succ, exec, hu', Option.bind_some] at h
        exact (ih t).1 h
  rcases (key n t).1 ht with rfl | rfl
  · rw [h4] at hd; cases hd
  · rw [hud] at hd; cases hd

/-- **C103, the part that holds**: if `g.close = true` came at a calm moment (as in C68), a dispatcher that finds the queue closed and
empty ends. Missing: other moments (false, see above). -/
theorem C103_dispatcher_ends_partial (cfg : Cfg) (as bs : List Act) (s t : St) (ha : exec cfg new as = some s) (hm : NoMiss cfg new as)
    (hf : s.flag = true) (hc : s.close = true) (hn : s.cancelled = false) (hp : s.poolClosed = false) (calm : Calm s)
    (hb : exec cfg s bs = some t) (hmb : NoMiss cfg s bs) (hcr : t.crash = false) (hq : t.qClosed = true) (he : t.q = []) :
    ∃ n u, exec cfg t (disps n) = some u ∧ u.disp = .idle := by
  obtain ⟨c1, c2, c3⟩ := calm
  have cl : CL s := by
    refine ⟨pre_exec pre_new hm ha hp hn, hc, hf, fun i c hi => c3 c (List.mem_of_getElem? hi), ?_, fun w k hk => c2 k (List.mem_of_getElem? hk)⟩
    cases hd : s.disp <;> rw [hd] at c1 <;> first
      | rfl
      | cases c1
  have ct := cl_exec cl hmb hb
  have tn := ct.pre.tn
  have hcl := ct.close
  have hcd := ct.disp
  clear ct cl
  unfold Tn at tn
  rw [he] at tn
  simp only [List.length_nil] at tn
  cases hd : t.disp <;> rw [hd] at hcd tn <;> simp only [calmD, Bool.false_eq_true] at hcd <;> simp only [mid, Bool.toNat_true, Bool.toNat_false] at tn
  case idle => exact ⟨0, t, rfl, hd⟩
  case unlock => exact ⟨1, { t with disp := .idle }, by simp [disps, exec, act, hcr, stepDisp, hd], rfl⟩
  case last =>
    have : ¬ 0 < t.tnum := by omega
    exact ⟨2, { t with disp := .idle }, by simp [disps, List.replicate, exec, act, hcr, stepDisp, hd, this], rfl⟩
  case range =>
    have : ¬ 0 < t.tnum := by omega
    exact ⟨3, { t with disp := .idle }, by simp [disps, List.replicate, exec, act, hcr, stepDisp, hd, he, hq, this], rfl⟩
  case dec =>
    have h1 : t.tnum - 1 ≤ 0 := by omega
    have h2 : ¬ 0 < t.tnum - 1 := by omega
    exact ⟨3, { t with disp := .idle, tnum := t.tnum - 1 }, by simp only [disps, List.replicate, exec, act, hcr, stepDisp, hd, h1, h2, Bool.false_eq_true, if_false, if_true, Option.bind_some], rfl⟩
  case chk f =>
    have h1 : t.tnum - 1 ≤ 0 := by omega
    have h2 : ¬ 0 < t.tnum - 1 := by omega
    exact ⟨4, { t with disp := .idle, tnum := t.tnum - 1, free := t.free ++ [⟨f, .ready⟩] },
      by simp only [disps, List.replicate, exec, act, hcr, stepDisp, hd, h1, h2, hcl, Bool.false_eq_true, if_false, if_true, Option.bind_some], rfl⟩

/-- `Close` at a calm moment, with two functions in the queue, and the dispatcher at work; then the ten seconds pass. -/
example : ∃ (as bs : List Act) (s t : St), exec ⟨1, 1, 8⟩ new as = some s ∧ NoMiss ⟨1, 1, 8⟩ new as ∧ s.flag = true ∧ s.close = true ∧ s.cancelled = false ∧
    s.poolClosed = false ∧ Calm s ∧ exec ⟨1, 1, 8⟩ s bs = some t ∧ NoMiss ⟨1, 1, 8⟩ s bs ∧ t.crash = false ∧ t.qClosed = true ∧ t.q = [] ∧ t.disp = .chk 2 := by
  have e : (exec ⟨1, 1, 8⟩ new (goes 0 ++ disps 10 ++ works 0 1 ++ goes 1 ++ goes 2 ++ [.close] ++ steps 3 2)).map
    (fun s => (s.flag && s.close && !s.cancelled && !s.poolClosed && decide (s.disp = .range) && s.workers.all (fun k => k.buf.isNone) &&
      s.log.all (fun c => decide (c.pc ≠ .tset)) && noMissB ⟨1, 1, 8⟩ s (steps 3 2 ++ disps 4 ++ [.timer]),
      (exec ⟨1, 1, 8⟩ s (steps 3 2 ++ disps 4 ++ [.timer])).map (fun t => (!t.crash && t.qClosed && decide (t.q = []) && decide (t.disp = .chk 2))))) =
    some (true, some true) := by decide +kernel
  obtain ⟨s, hs, hl⟩ := Option.map_eq_some_iff.1 e
  simp only [Prod.mk.injEq, Bool.and_eq_true, decide_eq_true_eq, Bool.not_eq_true', List.all_eq_true, Option.isNone_iff_eq_none] at hl
  obtain ⟨⟨⟨⟨⟨⟨⟨⟨h1, h2⟩, h3⟩, h4⟩, h5⟩, h7⟩, h8⟩, h10⟩, h9⟩ := hl
  obtain ⟨t, ht, hl⟩ := Option.map_eq_some_iff.1 h9
  simp only [Bool.and_eq_true, Bool.not_eq_true', decide_eq_true_eq] at hl
  obtain ⟨⟨⟨k1, k2⟩, k3⟩, k4⟩ := hl
  refine ⟨_, _, s, t, hs, noMiss_of (by decide +kernel), h1, h2, h3, h4, ⟨?_, h7, h8⟩, ht, noMiss_of h10, k1, k2, k3, k4⟩
  rw [h5]; trivial

end Gofer.Props.GoPool
