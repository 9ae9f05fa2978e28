import Verif.Model.GoPoolDepth
import Verif.Proof.GoPoolOpen

/-! # `GoPool`: frames of the dispatcher -/
namespace Gofer.GoPool
open Gofer.Count

variable {cfg : Cfg} {s t : St}

theorem execD_fst (cfg : Cfg) (s : St) (d : Nat) (as : List Act) : (execD cfg s d as).map Prod.fst = exec cfg s as := by
  induction as generalizing s d with
  | nil => rfl
  | cons a as ih =>
    simp only [execD, exec]
    cases act cfg s a with
    | none => rfl
    | some t => exact ih t _

theorem execD_append (cfg : Cfg) (s : St) (d : Nat) (as bs : List Act) :
    execD cfg s d (as ++ bs) = (execD cfg s d as).bind fun p => execD cfg p.1 p.2 bs := by
  induction as generalizing s d with
  | nil => rfl
  | cons a as ih =>
    simp only [execD, List.cons_append]
    cases act cfg s a with
    | none => rfl
    | some t => exact ih t _

/-- A call of `Go` that has counted its task, or that did not have to. -/
def past (c : Call) : Bool :=
  match c.kind, c.pc with
  | .go, .tryl | .go, .ret => true
  | _, _ => false
def isGo (c : Call) : Bool := match c.kind with | .go => true | _ => false
/-- The dispatcher is about to call `_funcn` again. -/
def pend (s : St) : Nat := match s.disp with | .last => if 0 < s.tnum then 1 else 0 | _ => 0

structure Dep (s : St) (d : Nat) : Prop where
  ko : ∀ (i : Nat) (c : Call), s.log[i]? = some c → kindOk c = true
  le : d + pend s ≤ s.log.countP past
  id : s.disp = .idle → d = 0

theorem past_go (c : Call) (h : past c = true) : isGo c = true := by
  unfold past at h
  unfold isGo
  split at h <;> simp_all

theorem frames_same {s t : St} {d : Nat} (h : t.disp = s.disp) (h0 : s.disp = .idle → d = 0) : frames s t d = d := by
  unfold frames
  rw [h]
  cases hd : s.disp <;> simp_all

theorem pend_same {s t : St} (h : t.disp = s.disp) (ht : t.tnum = s.tnum) : pend t = pend s := by
  unfold pend
  rw [h, ht]

theorem pend_ne {s : St} (h : s.disp ≠ .last) : pend s = 0 := by
  unfold pend
  split <;> simp_all

theorem pend_le (s : St) : pend s ≤ 1 := by
  unfold pend
  split
  · split <;> omega
  · omega

theorem dep_tr {d : Nat} (h : Dep s d) (hq : t.qClosed = false) (ht : Tr cfg s t) : Dep t (frames s t d) := by
  have hko := ko_tr h.ko ht
  have cnt : ∀ {i : Nat} {c : Call} (pc : Pc), s.log[i]? = some c →
      (s.log.set i { c with pc := pc }).countP past + (past c).toNat = s.log.countP past + (past { c with pc := pc }).toNat :=
    fun pc hi => cnt_set (p := past) hi
  have up : ∀ {i : Nat} {c : Call} (pc : Pc), s.log[i]? = some c → c.pc ≠ .tryl → c.pc ≠ .ret →
      s.log.countP past ≤ (s.log.set i { c with pc := pc }).countP past := by
    intro i c pc hi h1 h2
    have := cnt pc hi
    have e : past c = false := by
      unfold past
      split <;> simp_all
    rw [e] at this
    simp only [Bool.toNat_false] at this
    omega
  -- a step that leaves the dispatcher and `tnum`
  have keep : t.disp = s.disp → t.tnum = s.tnum → s.log.countP past ≤ t.log.countP past → Dep t (frames s t d) := by
    intro h1 h2 h3
    rw [frames_same h1 h.id]
    exact ⟨hko, by rw [pend_same h1 h2]; exact Nat.le_trans h.le h3, fun e => h.id (h1 ▸ e)⟩
  -- a step of the dispatcher that is no new call
  have move : t.disp ≠ .idle → s.disp ≠ .idle → s.disp ≠ .last → pend t = 0 → t.log = s.log → Dep t (frames s t d) := by
    intro h1 h2 h3 h4 h5
    have e : frames s t d = d := by
      unfold frames
      split <;> simp_all
    rw [e]
    refine ⟨hko, ?_, fun e => absurd e h1⟩
    rw [h4, h5]
    have := h.le
    omega
  cases ht
  case direct i c hi hp hc => exact keep rfl rfl (up .ret hi (by rw [hp]; decide) (by rw [hp]; decide))
  case check i c hi hp hc => exact keep rfl rfl (up .send hi (by rw [hp]; decide) (by rw [hp]; decide))
  case sendP i c hi hp hc => exact keep rfl rfl (up .panicked hi (by rw [hp]; decide) (by rw [hp]; decide))
  case send i c hi hp hc hl => exact keep rfl rfl (up .inc hi (by rw [hp]; decide) (by rw [hp]; decide))
  case inc i c hi hp =>
    have hk := h.ko i c hi
    have hg : c.kind = .go := by
      unfold kindOk at hk
      rw [hp] at hk
      split at hk <;> simp_all
    have := cnt .tryl hi
    have e1 : past c = false := by unfold past; rw [hp, hg]
    have e2 : past { c with pc := .tryl } = true := by unfold past; rw [hg]
    rw [e1, e2] at this
    simp only [Bool.toNat_true, Bool.toNat_false] at this
    have hf : frames s (St.goto { s with tnum := s.tnum + 1 } i c .tryl) d = d := frames_same rfl h.id
    rw [hf]
    refine ⟨hko, ?_, h.id⟩
    have := h.le
    have := pend_le (St.goto { s with tnum := s.tnum + 1 } i c .tryl)
    show d + _ ≤ (s.log.set i { c with pc := .tryl }).countP past
    omega
  case try1 i c hi hp hd =>
    have hk := h.ko i c hi
    have hg : c.kind = .go := by
      unfold kindOk at hk
      rw [hp] at hk
      split at hk <;> simp_all
    have := cnt .ret hi
    have e1 : past c = true := by unfold past; rw [hp, hg]
    have e2 : past { c with pc := .ret } = true := by unfold past; rw [hg]
    rw [e1, e2] at this
    have hpos : 0 < s.log.countP past := List.countP_pos_iff.2 ⟨c, List.mem_of_getElem? hi, e1⟩
    have hf : frames s (St.goto { s with disp := .range } i c .ret) d = 1 := by simp [frames, St.goto, hd]
    rw [hf]
    refine ⟨hko, ?_, fun e => by simp [St.goto] at e⟩
    show 1 + 0 ≤ (s.log.set i { c with pc := .ret }).countP past
    omega
  case try2 i c hi hp hd =>
    have hk := h.ko i c hi
    have hg : c.kind = .go := by
      unfold kindOk at hk
      rw [hp] at hk
      split at hk <;> simp_all
    have := cnt .ret hi
    have e1 : past c = true := by unfold past; rw [hp, hg]
    have e2 : past { c with pc := .ret } = true := by unfold past; rw [hg]
    rw [e1, e2] at this
    exact keep rfl rfl (by show _ ≤ (s.log.set i { c with pc := .ret }).countP past; omega)
  case casF i c hi hp hc => exact keep rfl rfl (up .ret hi (by rw [hp]; decide) (by rw [hp]; decide))
  case cas i c hi hp hc => exact keep rfl rfl (up .setClose hi (by rw [hp]; decide) (by rw [hp]; decide))
  case setClose i c hi hp => exact keep rfl rfl (up .cancel hi (by rw [hp]; decide) (by rw [hp]; decide))
  case cancel i c hi hp => exact keep rfl rfl (up .closePool hi (by rw [hp]; decide) (by rw [hp]; decide))
  case closePool i c hi hp => exact keep rfl rfl (up .ret hi (by rw [hp]; decide) (by rw [hp]; decide))
  case tchk i c pc hi hp hc => exact keep rfl rfl (up pc hi (by rw [hp]; decide) (by rw [hp]; decide))
  case tset i c b hi hp => exact keep rfl rfl (up .ret hi (by rw [hp]; decide) (by rw [hp]; decide))
  case rangeEnd hd hq' hc => rw [hc] at hq; cases hq
  case dec1 hd hl =>
    refine move (by simp) (by rw [hd]; decide) (by rw [hd]; decide) ?_ rfl
    have : ¬ 0 < s.tnum - 1 := by omega
    show (if 0 < s.tnum - 1 then 1 else 0) = 0
    rw [if_neg this]
  case last1 hd hl =>
    have hp : pend s = 1 := by simp [pend, hd, hl]
    have hf : frames s { s with disp := .range } d = d + 1 := by simp [frames, hd]
    rw [hf]
    refine ⟨hko, ?_, fun e => by simp at e⟩
    have := h.le
    show d + 1 + 0 ≤ s.log.countP past
    omega
  case last2 hd hl =>
    have hf : frames s { s with disp := .unlock } d = d := by simp [frames, hd]
    rw [hf]
    refine ⟨hko, ?_, fun e => by simp at e⟩
    have := h.le
    show d + 0 ≤ s.log.countP past
    omega
  case unlock hd =>
    have hf : frames s { s with disp := .idle } d = 0 := by simp [frames]
    rw [hf]
    exact ⟨hko, by simp [pend], fun _ => rfl⟩
  case range f q hd _ => exact move (by simp) (by rw [hd]; decide) (by rw [hd]; simp) (pend_ne (by simp)) rfl
  case chkC f hd _ => exact move (by simp) (by rw [hd]; simp) (by rw [hd]; simp) (pend_ne (by simp)) rfl
  case chk f hd _ => exact move (by simp) (by rw [hd]; simp) (by rw [hd]; simp) (pend_ne (by simp)) rfl
  case cnt1 f hd _ _ => exact move (by simp) (by rw [hd]; simp) (by rw [hd]; simp) (pend_ne (by simp)) rfl
  case cnt2 f hd _ => exact move (by simp) (by rw [hd]; simp) (by rw [hd]; simp) (pend_ne (by simp)) rfl
  case newId f hd => exact move (by simp) (by rw [hd]; simp) (by rw [hd]; simp) (pend_ne (by simp)) rfl
  case idChk1 f hd _ => exact move (by simp) (by rw [hd]; simp) (by rw [hd]; simp) (pend_ne (by simp)) rfl
  case idChk2 f hd _ => exact move (by simp) (by rw [hd]; simp) (by rw [hd]; simp) (pend_ne (by simp)) rfl
  case incId1 f hd _ => exact move (by simp) (by rw [hd]; simp) (by rw [hd]; simp) (pend_ne (by simp)) rfl
  case incId2 f hd _ => exact move (by simp) (by rw [hd]; simp) (by rw [hd]; simp) (pend_ne (by simp)) rfl
  case wait f w p hd _ => exact move (by simp) (by rw [hd]; simp) (by rw [hd]; simp) (pend_ne (by simp)) rfl
  case waitNil f hd _ _ => exact move (by simp) (by rw [hd]; simp) (by rw [hd]; simp) (pend_ne (by simp)) rfl
  case add f w k hd _ _ => exact move (by simp) (by rw [hd]; simp) (by rw [hd]; simp) (pend_ne (by simp)) rfl
  case once1 w k hd _ _ => exact move (by simp) (by rw [hd]; simp) (by rw [hd]; simp) (pend_ne (by simp)) rfl
  case once2 w k hd _ _ => exact move (by simp) (by rw [hd]; simp) (by rw [hd]; simp) (pend_ne (by simp)) rfl
  case dec2 hd _ => exact move (by simp) (by rw [hd]; simp) (by rw [hd]; simp) (pend_ne (by simp)) rfl
  all_goals exact keep rfl rfl (Nat.le_refl _)

theorem qc_tr (ht : Tr cfg s t) (hq : t.qClosed = false) : s.qClosed = false := by
  cases ht <;> first
    | exact hq
    | cases hq

theorem dep_act {a : Act} {d : Nat} (h : Dep s d) (hq : t.qClosed = false) (ht : act cfg s a = some t) : Dep t (frames s t d) ∧ s.qClosed = false := by
  by_cases hc : isCall a = true
  · obtain ⟨-, c, hcc, rfl⟩ := start_act ht hc
    have hf : frames s { s with log := s.log ++ [c] } d = d := frames_same rfl h.id
    rw [hf]
    refine ⟨⟨?_, ?_, h.id⟩, hq⟩
    · intro i c' hi
      rw [List.getElem?_append] at hi
      split at hi
      · exact h.ko i c' hi
      · rw [List.getElem?_singleton] at hi
        split at hi <;> cases hi
        rcases hcc with ⟨_, rfl⟩ | ⟨_, rfl⟩ | ⟨off, _, rfl⟩ <;> rfl
    · have hp : pend { s with log := s.log ++ [c] } = pend s := pend_same rfl rfl
      rw [hp, List.countP_append]
      have := h.le
      omega
  · have tr := tr_act ht (by simpa using hc)
    exact ⟨dep_tr h hq tr, qc_tr tr hq⟩

theorem qc_execD {d d' : Nat} {as : List Act} (ht : execD cfg s d as = some (t, d')) (hq : t.qClosed = false) : s.qClosed = false := by
  induction as generalizing s d with
  | nil => cases ht; exact hq
  | cons a as ih =>
    obtain ⟨u, hu, h2⟩ := Option.bind_eq_some_iff.1 ht
    have hu' := ih h2
    by_cases hc : isCall a = true
    · obtain ⟨-, c, -, rfl⟩ := start_act hu hc
      exact hu'
    · exact qc_tr (tr_act hu (by simpa using hc)) hu'

theorem dep_exec {d d' : Nat} {as : List Act} (h : Dep s d) (ht : execD cfg s d as = some (t, d')) (hq : t.qClosed = false) : Dep t d' := by
  induction as generalizing s d with
  | nil => cases ht; exact h
  | cons a as ih =>
    obtain ⟨u, hu, h2⟩ := Option.bind_eq_some_iff.1 ht
    exact ih (dep_act h (qc_execD h2 hq) hu).1 h2

theorem dep_new : Dep new 0 := ⟨fun i c h => by simp [new] at h, by simp [pend, new], fun _ => rfl⟩

end Gofer.GoPool
