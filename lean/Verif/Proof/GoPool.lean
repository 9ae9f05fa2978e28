import Verif.Spec.GoPool
import Verif.Proof.Count
import Mathlib.Data.List.Basic

/-! # `GoPool`: transitions, and where tasks are -/
namespace Gofer.GoPool
open Gofer.Count

/-- The transitions of the machine. -/
inductive Tr (cfg : Cfg) (s : St) : St → Prop
  | direct (i : Nat) (c : Call) : s.log[i]? = some c → c.pc = .check → s.close = true →
      Tr cfg s (St.goto { s with free := s.free ++ [⟨i, .ready⟩] } i c .ret)
  | check (i : Nat) (c : Call) : s.log[i]? = some c → c.pc = .check → s.close = false → Tr cfg s (s.goto i c .send)
  | sendP (i : Nat) (c : Call) : s.log[i]? = some c → c.pc = .send → s.qClosed = true → Tr cfg s (s.goto i c .panicked)
  | send (i : Nat) (c : Call) : s.log[i]? = some c → c.pc = .send → s.qClosed = false → s.q.length < cfg.funcLimit →
      Tr cfg s (St.goto { s with q := s.q ++ [i] } i c .inc)
  | inc (i : Nat) (c : Call) : s.log[i]? = some c → c.pc = .inc → Tr cfg s (St.goto { s with tnum := s.tnum + 1 } i c .tryl)
  | try1 (i : Nat) (c : Call) : s.log[i]? = some c → c.pc = .tryl → s.disp = .idle → Tr cfg s (St.goto { s with disp := .range } i c .ret)
  | try2 (i : Nat) (c : Call) : s.log[i]? = some c → c.pc = .tryl → s.disp ≠ .idle → Tr cfg s (s.goto i c .ret)
  | casF (i : Nat) (c : Call) : s.log[i]? = some c → c.pc = .cas → s.flag = true → Tr cfg s (s.goto i c .ret)
  | cas (i : Nat) (c : Call) : s.log[i]? = some c → c.pc = .cas → s.flag = false → Tr cfg s (St.goto { s with flag := true } i c .setClose)
  | setClose (i : Nat) (c : Call) : s.log[i]? = some c → c.pc = .setClose → Tr cfg s (St.goto { s with close := true } i c .cancel)
  | cancel (i : Nat) (c : Call) : s.log[i]? = some c → c.pc = .cancel → Tr cfg s (St.goto { s with cancelled := true } i c .closePool)
  | closePool (i : Nat) (c : Call) : s.log[i]? = some c → c.pc = .closePool → Tr cfg s (St.goto { s with timer := true, poolClosed := true } i c .ret)
  | tchk (i : Nat) (c : Call) (pc : Pc) : s.log[i]? = some c → c.pc = .tchk → pc = .ret ∨ (pc = .tset ∧ s.flag = false) → Tr cfg s (s.goto i c pc)
  | tset (i : Nat) (c : Call) (b : Bool) : s.log[i]? = some c → c.pc = .tset → Tr cfg s (St.goto { s with close := b } i c .ret)
  | range (f : Nat) (q : List Nat) : s.disp = .range → s.q = f :: q → Tr cfg s { s with q := q, disp := .chk f }
  | rangeEnd : s.disp = .range → s.q = [] → s.qClosed = true → Tr cfg s { s with disp := .last }
  | chkC (f : Nat) : s.disp = .chk f → s.close = true → Tr cfg s { s with free := s.free ++ [⟨f, .ready⟩], disp := .dec }
  | chk (f : Nat) : s.disp = .chk f → s.close = false → Tr cfg s { s with disp := .cnt f }
  | cnt1 (f : Nat) : s.disp = .cnt f → (cfg.minlimit : Int) < s.count + 1 → s.count + 1 ≤ (cfg.maxlimit : Int) →
      Tr cfg s { s with count := s.count + 1, disp := .newId f }
  | cnt2 (f : Nat) : s.disp = .cnt f → ¬ ((cfg.minlimit : Int) < s.count + 1 ∧ s.count + 1 ≤ (cfg.maxlimit : Int)) →
      Tr cfg s { s with count := s.count + 1, disp := .idChk f }
  | newId (f : Nat) : s.disp = .newId f →
      Tr cfg s { s with id := s.id + 1, workers := s.workers ++ [{ id := s.id + 1 }], disp := .add f s.workers.length }
  | idChk1 (f : Nat) : s.disp = .idChk f → cfg.minlimit < s.id → Tr cfg s { s with disp := .wait f }
  | idChk2 (f : Nat) : s.disp = .idChk f → s.id ≤ cfg.minlimit → Tr cfg s { s with disp := .incId f }
  | incId1 (f : Nat) : s.disp = .incId f → s.id + 1 ≤ cfg.minlimit →
      Tr cfg s { s with id := s.id + 1, workers := s.workers ++ [{ id := s.id + 1 }], disp := .add f s.workers.length }
  | incId2 (f : Nat) : s.disp = .incId f → cfg.minlimit < s.id + 1 → Tr cfg s { s with id := s.id + 1, disp := .wait f }
  | wait (f w : Nat) (p : List Nat) : s.disp = .wait f → s.pool = w :: p → Tr cfg s { s with pool := p, disp := .add f w }
  | waitNil (f : Nat) : s.disp = .wait f → s.pool = [] → s.poolClosed = true → Tr cfg s { s with disp := .unlock }
  | add (f w : Nat) (k : Worker) : s.disp = .add f w → s.workers[w]? = some k → k.buf = none →
      Tr cfg s { s.wset w { k with buf := some f } with disp := .once w }
  | once1 (w : Nat) (k : Worker) : s.disp = .once w → s.workers[w]? = some k → k.pc = .new →
      Tr cfg s { s.wset w { k with pc := .sel } with disp := .dec }
  | once2 (w : Nat) (k : Worker) : s.disp = .once w → s.workers[w]? = some k → k.pc ≠ .new → Tr cfg s { s with disp := .dec }
  | dec1 : s.disp = .dec → s.tnum - 1 ≤ 0 → Tr cfg s { s with tnum := s.tnum - 1, disp := .last }
  | dec2 : s.disp = .dec → 0 < s.tnum - 1 → Tr cfg s { s with tnum := s.tnum - 1, disp := .range }
  | last1 : s.disp = .last → 0 < s.tnum → Tr cfg s { s with disp := .range }
  | last2 : s.disp = .last → s.tnum ≤ 0 → Tr cfg s { s with disp := .unlock }
  | unlock : s.disp = .unlock → Tr cfg s { s with disp := .idle }
  | sel (w f : Nat) (k : Worker) : s.workers[w]? = some k → k.pc = .sel → k.buf = some f →
      Tr cfg s { s.wset w { k with buf := none, pc := .run f } with started := s.started ++ [f] }
  | put1 (w : Nat) (k : Worker) (d : Bool) : s.workers[w]? = some k → k.pc = .put1 d → Tr cfg s { s.wset w { k with pc := .put2 d } with count := s.count - 1 }
  | put2 (w : Nat) (k : Worker) (d : Bool) : s.workers[w]? = some k → k.pc = .put2 d → k.id ≤ cfg.minlimit → s.flag = false →
      Tr cfg s (s.wset w { k with pc := .put3 d })
  | put2D (w : Nat) (k : Worker) (d : Bool) : s.workers[w]? = some k → k.pc = .put2 d → cfg.minlimit < k.id ∨ s.flag = true →
      Tr cfg s (s.wset w { k with pc := .dead })
  | put3C (w : Nat) (k : Worker) : s.workers[w]? = some k → k.pc = .put3 false → s.poolClosed = true → Tr cfg s (s.wset w { k with pc := .put1 true })
  | put3X (w : Nat) (k : Worker) : s.workers[w]? = some k → k.pc = .put3 true → s.poolClosed = true → Tr cfg s { s with crash := true }
  | put3 (w : Nat) (k : Worker) (d : Bool) : s.workers[w]? = some k → k.pc = .put3 d → s.poolClosed = false → s.pool.length < cfg.minlimit →
      Tr cfg s { s.wset w { k with pc := .sel } with pool := s.pool ++ [w] }
  | quit (w : Nat) (k : Worker) : s.workers[w]? = some k → k.pc = .sel → s.cancelled = true → Tr cfg s (s.wset w { k with pc := .dead })
  | finish (w f : Nat) (k : Worker) (d : Bool) : s.workers[w]? = some k → k.pc = .run f → Tr cfg s (s.wset w { k with pc := .put1 d })
  | free (j : Nat) (g : Free) : s.free[j]? = some g → g.pc = .ready →
      Tr cfg s { s with free := s.free.set j { g with pc := .run }, started := s.started ++ [g.task] }
  | freeEnd (j : Nat) (g : Free) : s.free[j]? = some g → g.pc = .run → Tr cfg s { s with free := s.free.set j { g with pc := .done } }
  | freeX (j : Nat) (g : Free) : s.free[j]? = some g → g.pc = .run → Tr cfg s { s with crash := true }
  | timer : s.timer = true → Tr cfg s { s with timer := false, qClosed := true }

theorem tr_call {cfg : Cfg} {s t : St} {i : Nat} {c : Call} (hi : s.log[i]? = some c) (h : stepCall cfg s i c = some t) : Tr cfg s t := by
  unfold stepCall at h
  cases hp : c.pc <;> simp only [hp] at h
  case check =>
    split at h <;> cases h <;> rename_i hc
    · exact .direct i c hi hp hc
    · exact .check i c hi hp (by simpa using hc)
  case send =>
    split at h
    · rename_i hc; cases h; exact .sendP i c hi hp hc
    · rename_i hc
      split at h <;> cases h
      rename_i hl
      exact .send i c hi hp (by simpa using hc) hl
  case inc => cases h; exact .inc i c hi hp
  case tryl =>
    cases hd : s.disp <;> simp only [hd, Option.some.injEq] at h <;> subst h
    · exact .try1 i c hi hp hd
    all_goals (refine .try2 i c hi hp ?_; rw [hd]; simp)
  case cas =>
    split at h <;> cases h <;> rename_i hc
    · exact .casF i c hi hp hc
    · exact .cas i c hi hp (by simpa using hc)
  case setClose => cases h; exact .setClose i c hi hp
  case cancel => cases h; exact .cancel i c hi hp
  case closePool => cases h; exact .closePool i c hi hp
  case tchk =>
    cases h
    refine .tchk i c _ hi hp ?_
    cases hf : s.flag <;> simp
  case tset => cases h; exact .tset i c _ hi hp
  case ret => cases h
  case panicked => cases h

theorem tr_disp {cfg : Cfg} {s t : St} (h : stepDisp cfg s = some t) : Tr cfg s t := by
  unfold stepDisp at h
  cases hp : s.disp <;> simp only [hp] at h
  case idle => cases h
  case range =>
    split at h
    · rename_i f q hq; cases h; exact .range f q hp hq
    · rename_i hq
      split at h <;> cases h
      rename_i hc
      exact .rangeEnd hp hq hc
  case chk f =>
    split at h <;> cases h <;> rename_i hc
    · exact .chkC f hp hc
    · exact .chk f hp (by simpa using hc)
  case cnt f =>
    split at h <;> cases h <;> rename_i hc
    · exact .cnt1 f hp hc.1 hc.2
    · exact .cnt2 f hp hc
  case newId f => cases h; exact .newId f hp
  case idChk f =>
    split at h <;> cases h <;> rename_i hc
    · exact .idChk1 f hp hc
    · exact .idChk2 f hp (by omega)
  case incId f =>
    split at h <;> cases h <;> rename_i hc
    · exact .incId1 f hp hc
    · exact .incId2 f hp (by omega)
  case wait f =>
    split at h
    · rename_i w p hq; cases h; exact .wait f w p hp hq
    · rename_i hq
      split at h <;> cases h
      rename_i hc
      exact .waitNil f hp hq hc
  case add f w =>
    split at h
    · cases h
    · rename_i k hk
      split at h <;> cases h
      rename_i hb
      exact .add f w k hp hk hb
  case once w =>
    split at h
    · cases h
    · rename_i k hk
      split at h <;> cases h
      · rename_i hn; exact .once1 w k hp hk hn
      · rename_i hn; exact .once2 w k hp hk hn
  case dec =>
    split at h <;> cases h <;> rename_i hc
    · exact .dec1 hp hc
    · exact .dec2 hp (by omega)
  case last =>
    split at h <;> cases h <;> rename_i hc
    · exact .last1 hp hc
    · exact .last2 hp (by omega)
  case unlock => cases h; exact .unlock hp

theorem tr_work {cfg : Cfg} {s t : St} {w : Nat} {k : Worker} (hk : s.workers[w]? = some k) (h : stepWork cfg s w k = some t) : Tr cfg s t := by
  unfold stepWork at h
  cases hp : k.pc <;> simp only [hp] at h
  case sel =>
    split at h <;> cases h
    rename_i f hb
    exact .sel w f k hk hp hb
  case put1 d => cases h; exact .put1 w k d hk hp
  case put2 d =>
    cases h
    split
    · rename_i hc; exact .put2 w k d hk hp hc.1 hc.2
    · rename_i hc
      refine .put2D w k d hk hp ?_
      cases hf : s.flag
      · refine .inl ?_
        have : ¬ k.id ≤ cfg.minlimit := fun e => hc ⟨e, hf⟩
        omega
      · exact .inr rfl
  case put3 d =>
    split at h
    · rename_i hc
      cases d
      · cases h; exact .put3C w k hk hp hc
      · cases h; exact .put3X w k hk hp hc
    · rename_i hc
      split at h <;> cases h
      rename_i hl
      exact .put3 w k d hk hp (by simpa using hc) hl
  case new => cases h
  case run => cases h
  case dead => cases h

theorem start_act {cfg : Cfg} {s t : St} {a : Act} (h : act cfg s a = some t) (hc : isCall a = true) :
    s.crash = false ∧ ∃ c, ((a = .go ∧ c = ⟨.go, .check⟩) ∨ (a = .close ∧ c = ⟨.close, .cas⟩) ∨ ∃ off, a = .turn off ∧ c = ⟨.turn off, .tchk⟩) ∧
      t = { s with log := s.log ++ [c] } := by
  unfold act at h
  split at h
  · cases h
  rename_i hcr
  refine ⟨by simpa using hcr, ?_⟩
  cases a <;> simp only at h <;> try (cases hc; done)
  case go => cases h; exact ⟨_, .inl ⟨rfl, rfl⟩, rfl⟩
  case close => cases h; exact ⟨_, .inr (.inl ⟨rfl, rfl⟩), rfl⟩
  case turn off => cases h; exact ⟨_, .inr (.inr ⟨off, rfl, rfl⟩), rfl⟩

theorem tr_act {cfg : Cfg} {s t : St} {a : Act} (h : act cfg s a = some t) (hc : isCall a = false) : Tr cfg s t := by
  unfold act at h
  split at h
  · cases h
  cases a <;> simp only at h <;> try (cases hc; done)
  case step i =>
    obtain ⟨c, hi, hs⟩ := Option.bind_eq_some_iff.1 h
    exact tr_call hi hs
  case disp => exact tr_disp h
  case work w =>
    obtain ⟨k, hk, hs⟩ := Option.bind_eq_some_iff.1 h
    exact tr_work hk hs
  case quit w =>
    obtain ⟨k, hk, hs⟩ := Option.bind_eq_some_iff.1 h
    split at hs <;> cases hs
    rename_i hc
    exact .quit w k hk hc.1 hc.2
  case finish w =>
    obtain ⟨k, hk, hs⟩ := Option.bind_eq_some_iff.1 h
    split at hs <;> cases hs
    rename_i f hf
    exact .finish w f k false hk hf
  case panic w =>
    obtain ⟨k, hk, hs⟩ := Option.bind_eq_some_iff.1 h
    split at hs <;> cases hs
    rename_i f hf
    exact .finish w f k true hk hf
  case free j =>
    obtain ⟨g, hg, hs⟩ := Option.bind_eq_some_iff.1 h
    split at hs <;> cases hs
    rename_i hf
    exact .free j g hg hf
  case freeEnd j =>
    obtain ⟨g, hg, hs⟩ := Option.bind_eq_some_iff.1 h
    split at hs <;> cases hs
    rename_i hf
    exact .freeEnd j g hg hf
  case freePanic j =>
    obtain ⟨g, hg, hs⟩ := Option.bind_eq_some_iff.1 h
    split at hs <;> cases hs
    rename_i hf
    exact .freeX j g hg hf
  case timer =>
    split at h <;> cases h
    rename_i hc
    exact .timer hc

/-- The task the dispatcher has in hand. -/
def holds (x : Nat) : DPc → Bool
  | .chk f | .cnt f | .newId f | .idChk f | .incId f | .wait f | .add f _ => f == x
  | _ => false
def bufIs (x : Nat) (k : Worker) : Bool := k.buf == some x
def ready (x : Nat) (g : Free) : Bool := g.task == x && g.pc == .ready
def occ (s : St) (x : Nat) : Nat :=
  s.q.count x + (holds x s.disp).toNat + s.workers.countP (bufIs x) + s.free.countP (ready x) + s.started.count x
def acc (c : Call) : Bool :=
  match c.kind, c.pc with
  | .go, .inc | .go, .tryl | .go, .ret => true
  | _, _ => false
def accN (log : List Call) (x : Nat) : Nat := ((log[x]?).map fun c => (acc c).toNat).getD 0
def kindOk (c : Call) : Bool :=
  match c.kind, c.pc with
  | .go, .check | .go, .send | .go, .inc | .go, .tryl | .go, .ret | .go, .panicked => true
  | .close, .cas | .close, .setClose | .close, .cancel | .close, .closePool | .close, .ret => true
  | .turn _, .tchk | .turn _, .tset | .turn _, .ret => true
  | _, _ => false

theorem accN_app {log : List Call} {c : Call} (hc : acc c = false) (x : Nat) : accN (log ++ [c]) x = accN log x := by
  unfold accN
  by_cases h : x < log.length
  · rw [List.getElem?_append_left h]
  · by_cases e : x = log.length
    · subst e
      simp [hc]
    · rw [List.getElem?_eq_none (by simp; omega), List.getElem?_eq_none (by omega)]

theorem accN_set {log : List Call} {i : Nat} {c c' : Call} (hi : log[i]? = some c) (x : Nat) :
    accN (log.set i c') x = if x = i then (acc c').toNat else accN log x := by
  unfold accN
  by_cases e : x = i
  · subst e; rw [get_set_self hi]; simp
  · rw [get_set_ne e, if_neg e]

theorem accN_self {log : List Call} {i : Nat} {c : Call} (hi : log[i]? = some c) : accN log i = (acc c).toNat := by
  simp [accN, hi]

/-- Tasks are neither made nor doubled; and none is lost, except by the dispatcher that finds the pool closed and the worker that
leaves its `select` with a task in its channel. -/
theorem occ_tr {cfg : Cfg} {s t : St} (hko : ∀ (i : Nat) (c : Call), s.log[i]? = some c → kindOk c = true) (h : Tr cfg s t) (x : Nat) :
    occ t x + accN s.log x ≤ occ s x + accN t.log x ∧
    ((∀ f, s.disp = .wait f → s.poolClosed = false) → (∀ (w : Nat) (k : Worker), s.workers[w]? = some k → k.buf ≠ none → s.cancelled = false) →
      occ t x + accN s.log x = occ s x + accN t.log x) := by
  have keep : ∀ {t : St}, occ t x = occ s x → accN t.log x = accN s.log x → occ t x + accN s.log x ≤ occ s x + accN t.log x ∧
    ((∀ f, s.disp = .wait f → s.poolClosed = false) → (∀ (w : Nat) (k : Worker), s.workers[w]? = some k → k.buf ≠ none → s.cancelled = false) →
      occ t x + accN s.log x = occ s x + accN t.log x) := fun h1 h2 => ⟨by omega, fun _ _ => by omega⟩
  have same : ∀ {i : Nat} {c : Call} {pc : Pc}, s.log[i]? = some c → (acc { c with pc := pc } = acc c) → accN (s.log.set i { c with pc := pc }) x = accN s.log x := by
    intro i c pc hi he
    rw [accN_set hi]
    split
    · rename_i e; subst e; rw [accN_self hi, he]
    · rfl
  have setb : ∀ {w : Nat} {k : Worker} {pc : WPc}, s.workers[w]? = some k →
      (s.workers.set w { k with pc := pc }).countP (bufIs x) = s.workers.countP (bufIs x) := by
    intro w k pc hk
    have := cnt_set (p := bufIs x) (c' := { k with pc := pc }) hk
    simp only [bufIs] at this ⊢
    omega
  cases h with
  | direct i c hi hp hc =>
    have hk := hko i c hi
    have hg : c.kind = .go := by cases hq : c.kind <;> simp_all [kindOk]
    have e : accN s.log i = 0 := by rw [accN_self hi]; simp [acc, hg, hp]
    have ex : occ (St.goto { s with free := s.free ++ [⟨i, .ready⟩] } i c .ret) x = occ s x + (decide (i = x)).toNat := by
      by_cases hx : i = x <;> simp [occ, St.goto, ready, hx, List.countP_append, List.countP_cons] <;> omega
    have ea : accN (s.log.set i { c with pc := .ret }) x = if x = i then 1 else accN s.log x := by rw [accN_set hi]; simp [acc, hg]
    have e3 : accN (St.goto { s with free := s.free ++ [⟨i, .ready⟩] } i c .ret).log x = if x = i then 1 else accN s.log x := ea
    rw [ex, e3]
    by_cases hx : x = i
    · subst hx; simp [e]
    · simp [hx, Ne.symm hx]
  | check i c hi hp hc => exact keep rfl (same hi (by cases hq : c.kind <;> simp [acc, hp, hq]))
  | sendP i c hi hp hc => exact keep rfl (same hi (by cases hq : c.kind <;> simp [acc, hp, hq]))
  | send i c hi hp hc hl =>
    have hk := hko i c hi
    have hg : c.kind = .go := by cases hq : c.kind <;> simp_all [kindOk]
    have e : accN s.log i = 0 := by rw [accN_self hi]; simp [acc, hg, hp]
    have ex : occ (St.goto { s with q := s.q ++ [i] } i c .inc) x = occ s x + (decide (i = x)).toNat := by
      by_cases hx : i = x <;> simp [occ, St.goto, hx, List.count_append, List.count_cons] <;> omega
    have e3 : accN (St.goto { s with q := s.q ++ [i] } i c .inc).log x = if x = i then 1 else accN s.log x := by
      show accN (s.log.set i { c with pc := .inc }) x = _
      rw [accN_set hi]; simp [acc, hg]
    rw [ex, e3]
    by_cases hx : x = i
    · subst hx; simp [e]
    · simp [hx, Ne.symm hx]
  | inc i c hi hp => exact keep rfl (same hi (by cases hq : c.kind <;> simp [acc, hp, hq]))
  | try1 i c hi hp hd => exact keep (by simp [occ, St.goto, hd, holds]) (same hi (by cases hq : c.kind <;> simp [acc, hp, hq]))
  | try2 i c hi hp hd => exact keep rfl (same hi (by cases hq : c.kind <;> simp [acc, hp, hq]))
  | casF i c hi hp _ | cas i c hi hp _ | setClose i c hi hp | cancel i c hi hp | closePool i c hi hp | tchk i c pc hi hp _ | tset i c b hi hp =>
    refine keep rfl (same hi ?_)
    have hk := hko i c hi
    cases hq : c.kind <;> simp_all [acc, kindOk]
  | range f q hd hq => exact keep (by by_cases e : f = x <;> simp [occ, hd, hq, holds, List.count_cons, e]) rfl
  | rangeEnd hd hq hc => exact keep (by simp [occ, hd, holds]) rfl
  | chkC f hd hc =>
    refine keep ?_ rfl
    by_cases e : f = x <;> simp [occ, hd, holds, ready, e, List.countP_append, List.countP_cons] <;> omega
  | chk f hd hc => exact keep (by simp [occ, hd, holds]) rfl
  | cnt1 f hd _ _ | cnt2 f hd _ | idChk1 f hd _ | idChk2 f hd _ | incId2 f hd _ => exact keep (by simp [occ, hd, holds]) rfl
  | newId f hd | incId1 f hd _ => exact keep (by simp [occ, hd, holds, List.countP_append, bufIs]) rfl
  | wait f w p hd hp => exact keep (by simp [occ, hd, holds]) rfl
  | waitNil f hd hp hc =>
    refine ⟨?_, fun h _ => by rw [h f hd] at hc; cases hc⟩
    simp only [occ, hd, holds, Bool.toNat_false]
    omega
  | add f w k hd hk hb =>
    refine keep ?_ rfl
    have := cnt_set (p := bufIs x) (c' := { k with buf := some f }) hk
    simp only [occ, St.wset, hd, holds]
    simp only [bufIs, hb] at this ⊢
    by_cases e : f = x
    · subst e; simp_all; omega
    · have e' : (some f == some x) = false := by simpa using e
      have e2 : (f == x) = false := by simpa using e
      simp_all
  | once1 w k hd hk hp => exact keep (by simp only [occ, St.wset, hd, holds]; rw [setb hk]) rfl
  | once2 w k hd hk hp => exact keep (by simp [occ, hd, holds]) rfl
  | dec1 hd _ | dec2 hd _ | last1 hd _ | last2 hd _ | unlock hd => exact keep (by simp [occ, hd, holds]) rfl
  | sel w f k hk hp hb =>
    refine keep ?_ rfl
    have := cnt_set (p := bufIs x) (c' := { k with buf := none, pc := .run f }) hk
    simp only [occ, St.wset, List.count_append]
    simp only [bufIs, hb] at this ⊢
    by_cases e : f = x
    · subst e; simp_all; omega
    · have e' : (some f == some x) = false := by simpa using e
      simp_all
  | put1 w k d hk hp | put2 w k d hk hp _ _ | put2D w k d hk hp _ | put3C w k hk hp _ | put3 w k d hk hp _ _ | finish w f k d hk hp =>
    exact keep (by simp only [occ, St.wset]; rw [setb hk]) rfl
  | put3X w k hk hp _ => exact keep rfl rfl
  | quit w k hk hp hc => exact keep (by simp only [occ, St.wset]; rw [setb hk]) rfl
  | free j g hg hp =>
    refine keep ?_ rfl
    have := cnt_set (p := ready x) (c' := { g with pc := .run }) hg
    have e1 : ready x { g with pc := .run } = false := by simp [ready]
    have e2 : ready x g = (g.task == x) := by simp [ready, hp]
    rw [e1, e2] at this
    simp only [occ, List.count_append, List.count_singleton]
    cases hx : g.task == x <;> rw [hx] at this <;> simp only [Bool.toNat_true, Bool.toNat_false] at this <;> simp <;> omega
  | freeEnd j g hg hp =>
    refine keep ?_ rfl
    have := cnt_set (p := ready x) (c' := { g with pc := .done }) hg
    have e1 : ready x { g with pc := .done } = false := by simp [ready]
    have e2 : ready x g = false := by simp [ready, hp]
    rw [e1, e2] at this
    simp only [occ]
    omega
  | freeX j g hg hp => exact keep rfl rfl
  | timer _ => exact keep rfl rfl

/-- Every task is in at most one place, and only if it has been given to the pool. -/
structure Inv (s : St) : Prop where
  ko : ∀ (i : Nat) (c : Call), s.log[i]? = some c → kindOk c = true
  oc : ∀ x, occ s x ≤ accN s.log x

theorem inv_new : Inv new := ⟨fun i c h => by simp [new] at h, fun x => by simp [occ, new, holds]⟩

theorem ko_tr {cfg : Cfg} {s t : St} (hko : ∀ (i : Nat) (c : Call), s.log[i]? = some c → kindOk c = true) (h : Tr cfg s t) :
    ∀ (i : Nat) (c : Call), t.log[i]? = some c → kindOk c = true := by
  have key : ∀ {j : Nat} {c' : Call} {pc : Pc}, s.log[j]? = some c' → (kindOk c' = true → kindOk { c' with pc := pc } = true) →
      ∀ (i : Nat) (c : Call), (s.log.set j { c' with pc := pc })[i]? = some c → kindOk c = true := by
    intro j c' pc hj hk i c hi
    replace hi := get_set_cases hi
    rcases hi with ⟨rfl, rfl⟩ | ⟨_, hi⟩
    · exact hk (hko _ _ hj)
    · exact hko i c hi
  cases h
  case direct i c hi hp hc => exact key hi (by cases hq : c.kind <;> simp [kindOk, hp, hq])
  case check i c hi hp hc => exact key hi (by cases hq : c.kind <;> simp [kindOk, hp, hq])
  case sendP i c hi hp hc => exact key hi (by cases hq : c.kind <;> simp [kindOk, hp, hq])
  case send i c hi hp hc hl => exact key hi (by cases hq : c.kind <;> simp [kindOk, hp, hq])
  case inc i c hi hp => exact key hi (by cases hq : c.kind <;> simp [kindOk, hp, hq])
  case try1 i c hi hp hc => exact key hi (by cases hq : c.kind <;> simp [kindOk, hp, hq])
  case try2 i c hi hp hc => exact key hi (by cases hq : c.kind <;> simp [kindOk, hp, hq])
  case casF i c hi hp hc => exact key hi (by cases hq : c.kind <;> simp [kindOk, hp, hq])
  case cas i c hi hp hc => exact key hi (by cases hq : c.kind <;> simp [kindOk, hp, hq])
  case setClose i c hi hp => exact key hi (by cases hq : c.kind <;> simp [kindOk, hp, hq])
  case cancel i c hi hp => exact key hi (by cases hq : c.kind <;> simp [kindOk, hp, hq])
  case closePool i c hi hp => exact key hi (by cases hq : c.kind <;> simp [kindOk, hp, hq])
  case tchk i c pc hi hp hc => exact key hi (by rcases hc with rfl | ⟨rfl, _⟩ <;> cases hq : c.kind <;> simp [kindOk, hp, hq])
  case tset i c b hi hp => exact key hi (by cases hq : c.kind <;> simp [kindOk, hp, hq])
  all_goals exact hko

theorem inv_act {cfg : Cfg} {s t : St} {a : Act} (h : Inv s) (ht : act cfg s a = some t) : Inv t := by
  cases hc : isCall a
  · have htr := tr_act ht hc
    exact ⟨ko_tr h.ko htr, fun x => by have := (occ_tr h.ko htr x).1; have := h.oc x; omega⟩
  · obtain ⟨_, c, hcc, rfl⟩ := start_act ht hc
    refine ⟨fun i d hi => ?_, fun x => ?_⟩
    · replace hi := get_app hi
      rcases hi with ⟨hi, _⟩ | ⟨_, rfl⟩
      · exact h.ko i d hi
      · rcases hcc with ⟨_, rfl⟩ | ⟨_, rfl⟩ | ⟨_, _, rfl⟩ <;> rfl
    · have := h.oc x
      rw [accN_app (by rcases hcc with ⟨_, rfl⟩ | ⟨_, rfl⟩ | ⟨_, _, rfl⟩ <;> rfl)]
      exact this

theorem inv_exec {cfg : Cfg} {s t : St} {as : List Act} (h : Inv s) (ht : exec cfg s as = some t) : Inv t := by
  induction as generalizing s with
  | nil => simp only [exec, Option.some.injEq] at ht; subst ht; exact h
  | cons a as ih =>
    simp only [exec] at ht
    cases ha : act cfg s a with
    | none => simp [ha] at ht
    | some u => simp only [ha, Option.bind_some] at ht; exact ih (inv_act h ha) ht

theorem exec_append (cfg : Cfg) (s : St) (as bs : List Act) : exec cfg s (as ++ bs) = (exec cfg s as).bind fun t => exec cfg t bs := by
  induction as generalizing s with
  | nil => rfl
  | cons a as ih =>
    simp only [List.cons_append, exec]
    cases act cfg s a with
    | none => rfl
    | some t => simp only [Option.bind_some]; exact ih t

end Gofer.GoPool
