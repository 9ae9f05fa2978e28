import Verif.Proof.GoPoolDepth
import Verif.Props.GoPool

/-! # The stack of the dispatcher of `GoPool` (pool/gopool/gopool.go) -/
namespace Gofer.Props.GoPoolDepth
open Gofer.GoPool Gofer.Props.GoPool

/-- The calls of `Go` in a log. -/
def goCalls (log : List Call) : Nat := log.countP fun c => decide (c.kind = .go)

/-! ## C253 -/

/-- **C253**, the claim: the stack of the dispatcher does not grow with the use of the pool: for every pool there is a number of
frames that is enough for every run. -/
def C253_claim : Prop :=
  ∀ cfg : Cfg, ∃ B : Nat, ∀ (as : List Act) (s : St) (d : Nat), execD cfg new 0 as = some (s, d) → d ≤ B

/-- One `Go` between `if atomic.AddInt64(&g.tnum, -1) <= 0 { break }` and `if g.tnum > 0`, and its task, run by the worker, up to the
same place. -/
def round (i : Nat) : List Act := goes i ++ (disps 9 ++ works 0 1 ++ [.finish 0] ++ works 0 3)

/-- The first task, up to this place, and a second one. -/
def first : List Act := goes 0 ++ disps 8 ++ works 0 1 ++ [.finish 0] ++ works 0 3 ++ goes 1 ++ disps 10 ++ works 0 1 ++ [.finish 0] ++ works 0 3

def rounds : Nat → List Act
  | 0 => first
  | n + 1 => rounds n ++ round (n + 2)

/-- The pool at this place. -/
def place (log : List Call) (started : List Nat) : St :=
  { pool := [0], id := 2, disp := .last, workers := [⟨1, none, .sel⟩], log := log, started := started }

theorem round_place (log : List Call) (started : List Nat) (d : Nat) :
    execD ⟨1, 1, 8⟩ (place log started) d (round log.length) = some (place (log ++ [⟨.go, .ret⟩]) (started ++ [log.length]), d + 1) := by
  have hg : ∀ c : Call, (log ++ [c])[log.length]? = some c := fun c => by simp
  have hs : ∀ c c' : Call, (log ++ [c]).set log.length c' = log ++ [c'] := fun c c' => by simp
  have e : execD ⟨1, 1, 8⟩ (place log started) d (goes log.length) =
      some ({ place (log ++ [⟨.go, .ret⟩]) started with q := [log.length], tnum := 1 }, d) := by
    simp [place, goes, steps, execD, List.replicate, act, stepCall, frames, St.goto, hg, hs]
  rw [round, execD_append, e]
  simp only [Option.bind_some]
  generalize log.length = n
  rfl

theorem rounds_deep (n : Nat) : execD ⟨1, 1, 8⟩ new 0 (rounds n) = some (place (List.replicate (n + 2) ⟨.go, .ret⟩) (List.range (n + 2)), n + 2) := by
  induction n with
  | zero => decide +kernel
  | succ n ih =>
    have hr := round_place (List.replicate (n + 2) ⟨.go, .ret⟩) (List.range (n + 2)) (n + 2)
    rw [List.length_replicate] at hr
    rw [rounds, execD_append, ih]
    simp only [Option.bind_some]
    rw [hr, ← List.replicate_succ', ← List.range_succ]

theorem noClose_rounds (n : Nat) : NoClose (rounds n) := by
  induction n with
  | zero => exact noClose_of (by decide +kernel)
  | succ n ih =>
    intro a ha
    rw [rounds, List.mem_append] at ha
    rcases ha with ha | ha
    · exact ih a ha
    · simp only [round, goes, steps, disps, works, List.replicate, List.mem_append, List.mem_cons, List.not_mem_nil, or_false] at ha
      rcases ha with h | h <;> refine ⟨?_, ?_⟩ <;> intros <;> rintro rfl <;> simp at h

/-- In a pool that nobody closes, every call of `Go` may leave one more frame on the stack of the dispatcher, though every function was
run and has returned before the next call. -/
theorem C253_open_pool (n : Nat) : ∃ s, execD ⟨1, 1, 8⟩ new 0 (rounds n) = some (s, n + 2) ∧ NoClose (rounds n) ∧ goCalls s.log = n + 2 ∧
    s.q = [] ∧ s.tnum = 0 ∧ s.started = List.range (n + 2) := by
  refine ⟨_, rounds_deep n, noClose_rounds n, ?_, rfl, rfl, rfl⟩
  simp [goCalls, place, List.countP_replicate]

/-- After `Close`, three calls of `Go` are enough for any number of frames: the process is killed when the stack is full. -/
theorem C253_closed_pool : ∃ s, ∀ n, execD ⟨1, 1, 8⟩ new 0 (spinRun ++ disps (2 * n)) = some (s, n + 1) ∧ goCalls s.log = 3 ∧ s.log.length = 4 := by
  have e : (execD ⟨1, 1, 8⟩ new 0 spinRun).map (fun p => decide (p.2 = 1) && decide (goCalls p.1.log = 3) && decide (p.1.log.length = 4) &&
      !p.1.crash && p.1.qClosed && decide (p.1.q = []) && decide (p.1.disp = .range) && decide (p.1.tnum = 1)) = some true := by
    decide +kernel
  obtain ⟨⟨s, d⟩, hs, hl⟩ := Option.map_eq_some_iff.1 e
  simp only [Bool.and_eq_true, Bool.not_eq_true', decide_eq_true_eq] at hl
  obtain ⟨⟨⟨⟨⟨⟨⟨h1, h2⟩, h3⟩, h4⟩, h5⟩, h6⟩, h7⟩, h8⟩ := hl
  subst h1
  have two : ∀ d, execD ⟨1, 1, 8⟩ s d (disps 2) = some (s, d + 1) := by
    intro d
    have hself : ({ s with disp := .range } : St) = s := by rw [← h7]
    simp [disps, List.replicate, execD, act, h4, stepDisp, h7, h6, h5, h8, frames]
    rw [h4, h5, h6, h8] at hself
    exact hself
  refine ⟨s, fun n => ⟨?_, h2, h3⟩⟩
  rw [execD_append, hs]
  simp only [Option.bind_some]
  suffices h : ∀ n d, execD ⟨1, 1, 8⟩ s d (disps (2 * n)) = some (s, n + d) from h n 1
  intro n
  induction n with
  | zero => intro d; simp [disps, execD]
  | succ n ih =>
    intro d
    have : disps (2 * (n + 1)) = disps 2 ++ disps (2 * n) := by
      simp only [disps, List.replicate_append_replicate]
      congr 1
      omega
    rw [this, execD_append, two]
    simp only [Option.bind_some]
    rw [ih]
    congr 2
    omega

/-- **C253 is false.** -/
theorem C253_claim_false : ¬ C253_claim := by
  intro h
  obtain ⟨B, hB⟩ := h ⟨1, 1, 8⟩
  have := hB _ _ _ (rounds_deep B)
  omega

/-- **C253, the part that holds**: as long as the queue is not closed (ten seconds after `Close`), there are at most as many frames as
there were calls of `Go`, and none when there is no dispatcher. Missing: a bound that does not grow (false, see above), and any bound
after the queue is closed (false). -/
theorem C253_depth_partial (cfg : Cfg) (as : List Act) (s : St) (d : Nat) (h : execD cfg new 0 as = some (s, d)) (hq : s.qClosed = false) :
    d ≤ goCalls s.log ∧ (s.disp = .idle → d = 0) := by
  have hd := dep_exec dep_new h hq
  refine ⟨?_, hd.id⟩
  have h1 : s.log.countP past ≤ goCalls s.log := by
    apply List.countP_mono_left
    intro c _ hc
    have := past_go c hc
    unfold isGo at this
    split at this <;> simp_all
  have := hd.le
  omega

/-- Two calls, two frames. -/
example : ∃ s, execD ⟨1, 1, 8⟩ new 0 first = some (s, 2) ∧ s.qClosed = false ∧ goCalls s.log = 2 :=
  ⟨place (List.replicate 2 ⟨.go, .ret⟩) [0, 1], by decide +kernel, rfl, rfl⟩

end Gofer.Props.GoPoolDepth
