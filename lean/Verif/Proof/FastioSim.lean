import Verif.Proof.FastioErr

/-!
# `fastio` when writes of the fast path fail

A call whose write fails after `k` bytes behaves as a call with the first `k` bytes of its data whose write succeeds: `Sim`.
-/
namespace Gofer.Fastio

/-- The call with shorter data. -/
def cut : Option Nat → Call → Call
  | none, c => c
  | some k, c => { c with arg := c.arg.take k, data := c.data.take k, err := false }

def cutB : Option Nat → List UInt8 → List UInt8
  | none, bs => bs
  | some k, bs => bs.take k

section
variable (k : Option Nat) (c : Call)
@[simp] theorem cut_pc : (cut k c).pc = c.pc := by cases k <;> rfl
@[simp] theorem cut_fast : (cut k c).fast = c.fast := by cases k <;> rfl
@[simp] theorem cut_sync : (cut k c).sync = c.sync := by cases k <;> rfl
@[simp] theorem cut_wds : (cut k c).wds = c.wds := by cases k <;> rfl
@[simp] theorem cut_bw : (cut k c).bw = c.bw := by cases k <;> rfl
@[simp] theorem cut_ioErr : (cut k c).ioErr = c.ioErr := by cases k <;> rfl
@[simp] theorem cut_done : (cut k c).done = c.done := by cases k <;> rfl
@[simp] theorem cut_off : (cut k c).off = c.off := by cases k <;> rfl
@[simp] theorem cut_data : (cut k c).data = cutB k c.data := by cases k <;> rfl
@[simp] theorem cut_arg : (cut k c).arg = cutB k c.arg := by cases k <;> rfl
theorem cut_set_pc (pc : Pc) : { cut k c with pc } = cut k { c with pc } := by cases k <;> rfl
end

/-- The log with shorter data. -/
def cutLog (K : Nat → Option Nat) (log : List Call) : List Call := log.mapIdx fun i c => cut (K i) c

theorem cutLog_get (K : Nat → Option Nat) (log : List Call) (i : Nat) : (cutLog K log)[i]? = (log[i]?).map (cut (K i)) := by
  simp [cutLog]

theorem cutLog_set (K : Nat → Option Nat) (log : List Call) (i : Nat) (c : Call) : cutLog K (log.set i c) = (cutLog K log).set i (cut (K i) c) := by
  simp [cutLog, List.mapIdx_set]

theorem cutLog_app (K : Nat → Option Nat) (log : List Call) (c : Call) : cutLog K (log ++ [c]) = cutLog K log ++ [cut (K log.length) c] := by
  simp [cutLog, List.mapIdx_append]

/-- The same state with shorter data. -/
def Sim (K : Nat → Option Nat) (s s' : St) : Prop := ∃ order, s' = { s with log := cutLog K s.log, order := order }

/-- The event of the other execution. -/
def other (K : Nat → Option Nat) (n : Nat) : Act → Act
  | .start sync bs => .start sync (cutB (K n) bs)
  | .fail i _ => .step i
  | .reuse sync i d => .reuse sync i (cutB (K i) d)
  | a => a

theorem sim_set {K : Nat → Option Nat} {s t : St} {order : List Nat} {i : Nat} {c' : Call} (hl : t.log = s.log.set i c') :
    Sim K t { t with log := (cutLog K s.log).set i (cut (K i) c'), order := order } := ⟨order, by rw [hl, cutLog_set]⟩

theorem sim_step {K : Nat → Option Nat} {cap : Nat} {s s' t : St} {i : Nat} {c : Call} (hs : Sim K s s') (hi : s.log[i]? = some c)
    (ht : step cap s i c = some t) (hw : c.pc = .write → K i = none) (hch : ∀ x ∈ s.ch, K x = none) (hx : ∀ x, c.pc = .ioAdd x → K x = none)
    (hio : c.ioErr = false) : ∃ t', step cap s' i (cut (K i) c) = some t' ∧ Sim K t t' := by
  obtain ⟨order, rfl⟩ := hs
  unfold step at ht ⊢
  rw [cut_pc]
  split at ht
  case h_1 hp =>
    simp only [Option.some.injEq, stepEnter] at ht ⊢
    refine ⟨_, rfl, ?_⟩
    split at ht
    · rename_i h; subst ht; rw [if_pos h]
      exact ⟨order, by simp only [cutLog_set]; cases K i <;> rfl⟩
    · rename_i h; subst ht; rw [if_neg h]
      exact ⟨order, by simp only [cutLog_set]; cases K i <;> rfl⟩
  case h_2 hp =>
    unfold stepLock at ht ⊢
    simp only [cut_sync]
    split at ht
    all_goals
      rename_i h1
      rw [show c.sync = _ from (by simpa using h1)] 
      simp only [if_true, Bool.false_eq_true, if_false]
      split at ht
      · rename_i h2
        simp only [Option.some.injEq] at ht
        subst ht
        rw [if_pos h2]
        exact ⟨_, rfl, ⟨order, by simp only [goto, cutLog_set]; cases K i <;> rfl⟩⟩
      · cases ht
  case h_3 hp =>
    simp only [Option.some.injEq] at ht ⊢
    subst ht
    exact ⟨_, rfl, ⟨order, by simp only [goto, cutLog_set]; cases K i <;> rfl⟩⟩
  case h_4 hp =>
    simp only [Option.some.injEq] at ht ⊢
    subst ht
    have hk := hw hp
    exact ⟨_, rfl, order ++ [i], by simp only [cutLog_set, hk, cut]⟩
  case h_5 n hp =>
    simp only [Option.some.injEq] at ht ⊢
    subst ht
    exact ⟨_, rfl, ⟨order, by simp only [goto, cutLog_set]; cases K i <;> rfl⟩⟩
  case h_6 hp =>
    simp only [Option.some.injEq, stepUnlock, cut_fast, cut_sync] at ht ⊢
    subst ht
    refine ⟨_, rfl, ?_⟩
    split
    all_goals exact ⟨order, by simp only [goto, cutLog_set]; cases K i <;> rfl⟩
  case h_7 hp =>
    simp only [Option.some.injEq] at ht ⊢
    subst ht
    exact ⟨_, rfl, ⟨order, by simp only [goto, cutLog_set]; cases K i <;> rfl⟩⟩
  case h_8 hp =>
    split at ht
    · rename_i h
      simp only [Option.some.injEq] at ht
      subst ht
      simp only [h, if_true]
      exact ⟨_, rfl, ⟨order, by simp only [goto, cutLog_set]; cases K i <;> rfl⟩⟩
    · cases ht
  case h_9 hp =>
    simp only [Option.some.injEq, cut_sync] at ht ⊢
    subst ht
    exact ⟨_, rfl, ⟨order, by simp only [goto, cutLog_set]; cases K i <;> rfl⟩⟩
  case h_10 hp =>
    simp only [Option.some.injEq, stepTryLock, cut_sync] at ht ⊢
    subst ht
    refine ⟨_, rfl, ?_⟩
    split
    all_goals exact ⟨order, by simp only [goto, cutLog_set]; cases K i <;> rfl⟩
  case h_11 hp =>
    simp only [Option.some.injEq] at ht ⊢
    subst ht
    exact ⟨_, rfl, ⟨order, by simp only [goto, cutLog_set]; cases K i <;> rfl⟩⟩
  case h_12 hp =>
    simp only [cut_done]
    split at ht
    · rename_i h
      simp only [Option.some.injEq] at ht
      subst ht
      simp only [h, if_true]
      exact ⟨_, rfl, ⟨order, by simp only [goto, cutLog_set]; cases K i <;> rfl⟩⟩
    · cases ht
  case h_13 hp =>
    simp only [Option.some.injEq, ioRet, cut_fast] at ht ⊢
    subst ht
    exact ⟨_, rfl, ⟨order, by simp only [goto, cutLog_set]; cases K i <;> rfl⟩⟩
  case h_14 hp =>
    simp only [Option.some.injEq] at ht ⊢
    subst ht
    exact ⟨_, rfl, ⟨order, by simp only [goto, cutLog_set]; cases K i <;> rfl⟩⟩
  case h_15 hp =>
    unfold stepRecv at ht ⊢
    split at ht
    · cases ht
    rename_i x ch hx1
    split at ht
    · cases ht
    rename_i e hx2
    simp only at ht
    split at ht
    · cases ht
    rename_i c1 h1
    simp only [Option.some.injEq] at ht
    subst ht
    have hk := hch x (by rw [hx1]; simp)
    have h2 : (cutLog K s.log)[x]? = some e := by rw [cutLog_get, hx2, hk]; rfl
    have h3 : ((cutLog K s.log).set x { e with off := s.offset })[i]? = some (cut (K i) c1) := by
      have := cutLog_get K (s.log.set x { e with off := s.offset }) i
      rw [h1, cutLog_set, hk] at this
      exact this
    simp only [hx1, h2, h3]
    refine ⟨_, rfl, order ++ [x], ?_⟩
    simp only [cutLog_set, hk]
    cases K i <;> rfl
  case h_16 x hp =>
    split at ht
    · cases ht
    rename_i e he
    simp only [Option.some.injEq] at ht
    subst ht
    have h2 : (cutLog K s.log)[x]? = some e := by rw [cutLog_get, he, hx x hp]; rfl
    simp only [h2]
    exact ⟨_, rfl, ⟨order, by simp only [goto, cutLog_set]; cases K i <;> rfl⟩⟩
  case h_17 hp =>
    simp only [Option.some.injEq] at ht ⊢
    subst ht
    exact ⟨_, rfl, ⟨order, by simp only [goto, cutLog_set]; cases K i <;> rfl⟩⟩
  case h_18 hp =>
    simp only [Option.some.injEq] at ht ⊢
    subst ht
    exact ⟨_, rfl, ⟨order, by simp only [goto, cutLog_set]; cases K i <;> rfl⟩⟩
  case h_19 hp =>
    simp only [Option.some.injEq, cut_bw] at ht ⊢
    subst ht
    exact ⟨_, rfl, ⟨order, by simp only [goto, cutLog_set]; cases K i <;> rfl⟩⟩
  case h_20 hp =>
    unfold stepClose at ht ⊢
    simp only [cut_wds, cut_ioErr, cut_fast]
    split at ht
    · rename_i x wds hwd
      split at ht
      · cases ht
      rename_i e hx2
      simp only at ht
      split at ht
      · cases ht
      rename_i c1 h1
      simp only [Option.some.injEq] at ht
      subst ht
      have h2 : (cutLog K s.log)[x]? = some (cut (K x) e) := by rw [cutLog_get, hx2]; rfl
      have e1 : cut (K x) { e with done := true } = { cut (K x) e with done := true } := by cases K x <;> rfl
      have h3 : ((cutLog K s.log).set x { cut (K x) e with done := true })[i]? = some (cut (K i) c1) := by
        have := cutLog_get K (s.log.set x { e with done := true }) i
        rw [h1, cutLog_set, e1] at this
        exact this
      simp only [hwd, h2, h3]
      refine ⟨_, rfl, order, ?_⟩
      simp only [cutLog_set, e1]
      cases K i <;> rfl
    · rename_i hwd
      rw [hio] at ht ⊢
      simp only [Bool.false_and, Bool.false_eq_true, if_false, Option.some.injEq, hwd, ioRet, cut_fast] at ht ⊢
      subst ht
      exact ⟨_, rfl, ⟨order, by simp only [goto, cutLog_set]; cases K i <;> rfl⟩⟩
  case h_21 hp =>
    simp only [Option.some.injEq] at ht ⊢
    subst ht
    exact ⟨_, rfl, ⟨order, by simp only [goto, cutLog_set]; cases K i <;> rfl⟩⟩
  case h_22 hp => cases ht

theorem sim_len {K : Nat → Option Nat} {s s' : St} (h : Sim K s s') : s'.log.length = s.log.length := by
  obtain ⟨order, rfl⟩ := h
  simp [cutLog]

theorem cutB_length {k : Option Nat} {a b : List UInt8} (h : a.length = b.length) : (cutB k a).length = (cutB k b).length := by
  cases k with
  | none => exact h
  | some k => simp [cutB, h]

theorem sim_act {K : Nat → Option Nat} {cap : Nat} {s s' t : St} {a : Act} (hs : Sim K s s') (ht : act cap s a = some t)
    (hw : ∀ (i : Nat) (c : Call), a = .step i → s.log[i]? = some c → c.pc = .write → K i = none)
    (hf : ∀ (i k : Nat) (c : Call), a = .fail i k → s.log[i]? = some c → c.pc = .write ∧ K i = some k)
    (hch : ∀ x ∈ s.ch, K x = none) (hx : ∀ (i : Nat) (c : Call), s.log[i]? = some c → ∀ x, c.pc = .ioAdd x → K x = none)
    (hio : ∀ (i : Nat) (c : Call), s.log[i]? = some c → c.ioErr = false) : ∃ t', act cap s' (other K s.log.length a) = some t' ∧ Sim K t t' := by
  cases a with
  | start sync bs =>
    obtain ⟨order, rfl⟩ := hs
    simp only [act, Option.some.injEq] at ht
    subst ht
    refine ⟨_, rfl, order, ?_⟩
    simp only [cutLog_app]
    cases K s.log.length <;> rfl
  | step i =>
    obtain ⟨c, hi, ht⟩ := Option.bind_eq_some_iff.1 ht
    obtain ⟨t', h1, h2⟩ := sim_step hs hi ht (hw i c rfl hi) hch (hx i c hi) (hio i c hi)
    refine ⟨t', ?_, h2⟩
    obtain ⟨order, rfl⟩ := hs
    simp only [other, act, cutLog_get, hi, Option.map_some, Option.bind_some]
    exact h1
  | timeout i =>
    obtain ⟨order, rfl⟩ := hs
    obtain ⟨c, hi, ht⟩ := Option.bind_eq_some_iff.1 ht
    split at ht
    · rename_i hp
      simp only [Option.some.injEq] at ht
      subst ht
      simp only [other, act, cutLog_get, hi, Option.map_some, Option.bind_some, cut_pc, hp, if_true]
      exact ⟨_, rfl, order, by simp only [goto, cutLog_set]; cases K i <;> rfl⟩
    · cases ht
  | spill i k =>
    obtain ⟨order, rfl⟩ := hs
    obtain ⟨c, hi, ht⟩ := Option.bind_eq_some_iff.1 ht
    unfold spill at ht
    split at ht
    · rename_i x hp
      simp only [Option.some.injEq] at ht
      subst ht
      simp only [other, act, spill, cutLog_get, hi, Option.map_some, Option.bind_some, cut_pc, cut_bw, hp]
      exact ⟨_, rfl, order, by simp only [cutLog_set]; cases K i <;> rfl⟩
    · cases ht
  | fail i k =>
    obtain ⟨order, rfl⟩ := hs
    obtain ⟨c, hi, ht⟩ := Option.bind_eq_some_iff.1 ht
    obtain ⟨hp, hk⟩ := hf i k c rfl hi
    simp only [fail, hp, Option.some.injEq] at ht
    subst ht
    simp only [other, act, cutLog_get, hi, Option.map_some, Option.bind_some, step, cut_pc, hp]
    refine ⟨_, rfl, order ++ [i], ?_⟩
    simp only [cutLog_set, hk]
    rfl
  | reuse sync i d =>
    obtain ⟨order, rfl⟩ := hs
    obtain ⟨c, hi, ht⟩ := Option.bind_eq_some_iff.1 ht
    split at ht
    · rename_i hp
      simp only [Option.some.injEq] at ht
      subst ht
      simp only [other, act, cutLog_get, hi, Option.map_some, Option.bind_some, cut_pc, cut_sync, cut_data]
      rw [if_pos ⟨hp.1, hp.2.1, cutB_length hp.2.2⟩]
      exact ⟨_, rfl, order, by simp only [cutLog_set]; cases K i <;> rfl⟩
    · cases ht

/-! ### Calls along an execution -/

theorem chg_exec {cap : Nat} {as : List Act} {s t : St} (ht : exec cap s as = some t) {i : Nat} {c : Call} (hi : s.log[i]? = some c) :
    ∃ d, t.log[i]? = some d ∧ (wf c = true → wf d = true ∧ (placed c = true → placed d = true) ∧ (sent c = true → sent d = true)) := by
  induction as generalizing s c with
  | nil =>
    simp only [exec, Option.some.injEq] at ht; subst ht
    exact ⟨c, hi, fun h => ⟨h, id, id⟩⟩
  | cons a as ih =>
    obtain ⟨u, hu, ht⟩ := Option.bind_eq_some_iff.1 ht
    obtain ⟨e, he⟩ := act_keeps hu hi
    obtain ⟨d, hd, h⟩ := ih ht he
    refine ⟨d, hd, fun hw => ?_⟩
    have hce : wf e = true ∧ (placed c = true → placed e = true) ∧ (sent c = true → sent e = true) := by
      rcases chg_act hu he with ⟨sync, bs, rfl, _⟩ | ⟨c', hc', hg⟩
      · simp only [act, Option.some.injEq] at hu
        rw [← hu] at he
        simp only [List.getElem?_append_left (List.getElem?_eq_some_iff.1 hi).1] at he
        rw [hi] at he; cases he
        exact ⟨hw, id, id⟩
      · rw [hi] at hc'; cases hc'
        exact ⟨hg.wf hw, hg.kp hw, hg.ks hw⟩
    obtain ⟨k1, k2, k3⟩ := h hce.1
    exact ⟨k1, fun hp => k2 (hce.2.1 hp), fun hp => k3 (hce.2.2 hp)⟩

theorem exec_split {cap : Nat} {as bs : List Act} {s t : St} (h : exec cap s (as ++ bs) = some t) : ∃ u, exec cap s as = some u ∧ exec cap u bs = some t := by
  induction as generalizing s with
  | nil => exact ⟨s, rfl, h⟩
  | cons a as ih =>
    simp only [List.cons_append, exec] at h
    obtain ⟨v, hv, h⟩ := Option.bind_eq_some_iff.1 h
    obtain ⟨u, h1, h2⟩ := ih h
    exact ⟨u, by simp only [exec, hv, Option.bind_some]; exact h1, h2⟩

/-- Only elements of the queue are received. -/
theorem add_act {cap : Nat} {s t : St} {a : Act} (ht : act cap s a = some t) {i : Nat} {d : Call} (hd : t.log[i]? = some d) {x : Nat}
    (hx : d.pc = .ioAdd x) : (∃ c, s.log[i]? = some c ∧ c.pc = .ioAdd x) ∨ x ∈ s.ch := by
  have one : ∀ {j : Nat} {c' : Call}, t.log = s.log.set j c' → (c'.pc = .ioAdd x → (∃ c, s.log[j]? = some c ∧ c.pc = .ioAdd x) ∨ x ∈ s.ch) →
      (∃ c, s.log[i]? = some c ∧ c.pc = .ioAdd x) ∨ x ∈ s.ch := by
    intro j c' hl h
    rw [hl] at hd
    rcases get_set hd with ⟨rfl, rfl⟩ | h1
    · exact h hx
    · exact .inl ⟨d, h1, hx⟩
  cases a with
  | start sync bs =>
    simp only [act, Option.some.injEq] at ht
    rw [← ht] at hd
    simp only [List.getElem?_append] at hd
    split at hd
    · exact .inl ⟨d, hd, hx⟩
    · rw [List.getElem?_singleton] at hd
      split at hd
      · cases hd; cases hx
      · cases hd
  | step j =>
    obtain ⟨c, hi, ht⟩ := Option.bind_eq_some_iff.1 ht
    unfold step at ht
    split at ht
    case h_15 hp =>
      unfold stepRecv at ht
      split at ht
      · cases ht
      rename_i y ch hch
      split at ht
      · cases ht
      rename_i e hy
      simp only at ht
      split at ht
      · cases ht
      simp only [Option.some.injEq] at ht
      rw [← ht] at hd
      rcases get_set hd with ⟨rfl, rfl⟩ | h1
      · simp only [Pc.ioAdd.injEq] at hx
        subst hx
        exact .inr (by rw [hch]; simp)
      · rcases get_set h1 with ⟨rfl, rfl⟩ | h1
        · exact .inl ⟨e, hy, hx⟩
        · exact .inl ⟨d, h1, hx⟩
    case h_20 hp =>
      unfold stepClose at ht
      split at ht
      · rename_i y wds hw
        split at ht
        · cases ht
        rename_i e hy
        simp only at ht
        split at ht
        · cases ht
        rename_i c1 h1
        simp only [Option.some.injEq] at ht
        rw [← ht] at hd
        rcases get_set hd with ⟨rfl, rfl⟩ | h2
        · rcases get_set h1 with ⟨rfl, rfl⟩ | h1
          · exact .inl ⟨e, hy, hx⟩
          · exact .inl ⟨c1, h1, hx⟩
        · rcases get_set h2 with ⟨rfl, rfl⟩ | h2
          · exact .inl ⟨e, hy, hx⟩
          · exact .inl ⟨d, h2, hx⟩
      · split at ht <;> simp only [Option.some.injEq] at ht
        · exact one (congrArg St.log ht).symm (by simp)
        · refine one (congrArg St.log ht).symm ?_
          simp only [ioRet]; split <;> simp
    case h_22 hp => cases ht
    all_goals
      try simp only [stepEnter, stepLock, stepUnlock, stepTryLock, ioRet] at ht
      repeat' split at ht
      all_goals first
        | (cases ht; done)
        | (simp only [Option.some.injEq] at ht
           exact one (congrArg St.log ht).symm (by
            simp only
            repeat' split
            all_goals simp))
  | timeout j =>
    obtain ⟨c, hi, ht⟩ := Option.bind_eq_some_iff.1 ht
    split at ht
    · simp only [Option.some.injEq] at ht
      exact one (congrArg St.log ht).symm (by simp)
    · cases ht
  | spill j k =>
    obtain ⟨c, hi, ht⟩ := Option.bind_eq_some_iff.1 ht
    unfold spill at ht
    split at ht
    · simp only [Option.some.injEq] at ht
      exact one (congrArg St.log ht).symm (fun h => .inl ⟨c, hi, h⟩)
    · cases ht
  | fail j k =>
    obtain ⟨c, hi, ht⟩ := Option.bind_eq_some_iff.1 ht
    unfold fail at ht
    split at ht
    · simp only [Option.some.injEq] at ht
      exact one (congrArg St.log ht).symm (by simp)
    · simp only [Option.some.injEq] at ht
      exact one (congrArg St.log ht).symm (by simp)
    · simp only [Option.some.injEq] at ht
      exact one (congrArg St.log ht).symm (by simp)
    · cases ht
  | reuse sync j dd =>
    obtain ⟨c, hi, ht⟩ := Option.bind_eq_some_iff.1 ht
    split at ht
    · simp only [Option.some.injEq] at ht
      exact one (congrArg St.log ht).symm (fun h => .inl ⟨c, hi, h⟩)
    · cases ht

/-- All failing writes are writes of the fast path. -/
def FastFails (cap : Nat) (init : List UInt8) (as : List Act) : Prop :=
  ∀ (pre : List Act) (i k : Nat) (rest : List Act) (u : St) (c : Call), as = pre ++ .fail i k :: rest → exec cap (newFile init) pre = some u → u.log[i]? = some c → c.pc = .write

theorem wf_reached {cap : Nat} {init : List UInt8} {as : List Act} {s : St} (h : exec cap (newFile init) as = some s) {i : Nat} {c : Call}
    (hi : s.log[i]? = some c) : wf c = true := by
  have h0 : InvE [] (newFile init) := by intro i c hc; simp [newFile] at hc
  exact (invE_exec h0 h i c hi).1

theorem no_write {c : Call} (h : placed c = true ∨ sent c = true) (hw : wf c = true) : c.pc ≠ .write := by
  intro hp
  simp only [wf, wfPc, hp] at hw
  simp [placed, sent, hp, hw] at h

/-- A call that is placed or sent has no failing write ahead. -/
theorem no_fail_ahead {cap : Nat} {init : List UInt8} {pre rest : List Act} {s t : St} (hff : FastFails cap init (pre ++ rest))
    (hs : exec cap (newFile init) pre = some s) (ht : exec cap s rest = some t) {i : Nat} {c : Call} (hi : s.log[i]? = some c)
    (hc : placed c = true ∨ sent c = true) (k : Nat) : Act.fail i k ∉ rest := by
  intro hm
  obtain ⟨q1, q2, rfl⟩ := List.append_of_mem hm
  obtain ⟨u, hu, _⟩ := exec_split ht
  obtain ⟨d, hd, h⟩ := chg_exec hu hi
  obtain ⟨h1, h2, h3⟩ := h (wf_reached hs hi)
  exact no_write (hc.imp h2 h3) h1 (hff (pre ++ q1) i k q2 u d (by simp) (by rw [exec_app hs]; exact hu) hd)

/-- A call with a failed write behind it is placed. -/
theorem failed_placed {cap : Nat} {init : List UInt8} {pre rest : List Act} {s : St} (hff : FastFails cap init (pre ++ rest))
    (hs : exec cap (newFile init) pre = some s) {i k : Nat} {c : Call} (hi : s.log[i]? = some c) (hm : Act.fail i k ∈ pre) : placed c = true := by
  obtain ⟨q1, q2, rfl⟩ := List.append_of_mem hm
  obtain ⟨u, hu, h2⟩ := exec_split hs
  obtain ⟨v, hv, h2⟩ := Option.bind_eq_some_iff.1 h2
  obtain ⟨d, hd, hv'⟩ := Option.bind_eq_some_iff.1 hv
  have hp := hff q1 i k (q2 ++ rest) u d (by simp) hu hd
  have hw := wf_reached hu hd
  simp only [fail, hp, Option.some.injEq] at hv'
  have hl := (List.getElem?_eq_some_iff.1 hd).1
  have hv2 : v.log[i]? = some { d with err := true, pc := .add (d.data.take k).length } := by
    rw [← hv']; simp [List.getElem?_set, hl]
  obtain ⟨e, he, h⟩ := chg_exec h2 hv2
  rw [hi] at he; cases he
  simp only [wf, wfPc, hp] at hw
  exact (h (by simp [wf, wfPc, hw])).2.1 (by simp [placed, hw])

/-- Which call fails, after how many bytes. -/
def failOf (as : List Act) (i : Nat) : Option Nat := as.findSome? fun a => match a with | .fail j k => if j = i then some k else none | _ => none

theorem failOf_some {as : List Act} {i k : Nat} (h : failOf as i = some k) : Act.fail i k ∈ as := by
  obtain ⟨a, ha, h⟩ := List.exists_of_findSome?_eq_some h
  split at h
  · split at h
    · cases h; rename_i e; subst e; exact ha
    · cases h
  · cases h

theorem failOf_mem {as : List Act} {i k : Nat} (h : Act.fail i k ∈ as) : ∃ k', failOf as i = some k' := by
  cases hx : failOf as i with
  | some k' => exact ⟨k', rfl⟩
  | none =>
    rw [failOf, List.findSome?_eq_none_iff] at hx
    have := hx _ h
    simp at this

/-- The other execution. -/
theorem sim_exec {cap : Nat} {init : List UInt8} {as : List Act} {s : St} (hff : FastFails cap init as) (hre : ∀ i d, Act.reuse false i d ∉ as)
    (h : exec cap (newFile init) as = some s) : ∃ bs s', (∀ a ∈ bs, Clean a) ∧ exec cap (newFile init) bs = some s' ∧ Sim (failOf as) s s' := by
  suffices H : ∀ rest pre u u' qs, as = pre ++ rest → exec cap (newFile init) pre = some u → (∀ a ∈ qs, Clean a) →
      exec cap (newFile init) qs = some u' → Sim (failOf as) u u' →
      (∀ (i : Nat) (c : Call), u.log[i]? = some c → ∀ x, c.pc = .ioAdd x → ∃ d, u.log[x]? = some d ∧ sent d = true) →
      ∃ bs s', (∀ a ∈ bs, Clean a) ∧ exec cap (newFile init) bs = some s' ∧ Sim (failOf as) s s' from
    H as [] (newFile init) (newFile init) [] rfl rfl (by simp) rfl ⟨[], rfl⟩ (by intro i c hc; simp [newFile] at hc)
  intro rest
  induction rest with
  | nil =>
    intro pre u u' qs hp hu hq hu' hsim _
    rw [List.append_nil] at hp; subst hp
    rw [h] at hu; cases hu
    exact ⟨qs, u', hq, hu', hsim⟩
  | cons a rest ih =>
    intro pre u u' qs hp hu hq hu' hsim hadd
    obtain ⟨invA, invB⟩ := inv_exec (invA_init init) (invB_init init) hq hu'
    have hall := h
    rw [hp] at hall
    obtain ⟨u1, e1, hrest⟩ := exec_split hall
    rw [hu] at e1; cases e1
    obtain ⟨v, hv, hrest'⟩ := Option.bind_eq_some_iff.1 hrest
    have hff' : FastFails cap init (pre ++ a :: rest) := hp ▸ hff
    -- calls that are sent have no failing write
    have hsent : ∀ (x : Nat) (d : Call), u.log[x]? = some d → sent d = true → failOf as x = none := by
      intro x d hd hs
      cases hk : failOf as x with
      | none => rfl
      | some k =>
        have hm := failOf_some hk
        rw [hp] at hm
        rcases List.mem_append.1 hm with hm | hm
        · have := failed_placed hff' hu hd hm
          rw [placed_eq] at this
          rw [sent_eq] at hs
          revert this hs
          cases d.pc <;> cases d.fast <;> simp [plcPc, sntPc]
        · exact absurd hm (no_fail_ahead hff' hu hrest hd (.inr hs) k)
    have hlog : ∀ (i : Nat) (c : Call), u.log[i]? = some c → u'.log[i]? = some (cut (failOf as i) c) := by
      obtain ⟨order, rfl⟩ := hsim
      intro i c hc
      simp [cutLog_get, hc]
    have huch : u'.ch = u.ch := by obtain ⟨order, rfl⟩ := hsim; rfl
    have hchs : ∀ x ∈ u.ch, ∃ d, u.log[x]? = some d ∧ sent d = true := by
      intro x hx
      obtain ⟨c, hc, hs⟩ := invB.inch x (by rw [huch]; exact hx)
      obtain ⟨order, rfl⟩ := hsim
      simp only [cutLog_get] at hc
      obtain ⟨d, hd, rfl⟩ := Option.map_eq_some_iff.1 hc
      refine ⟨d, hd, ?_⟩
      rw [sent_eq] at hs ⊢
      simpa using hs
    obtain ⟨v', hv', hsim'⟩ := sim_act hsim hv
      (by
        intro i c ha hc hpc
        subst ha
        cases hk : failOf as i with
        | none => rfl
        | some k =>
          exfalso
          have hm := failOf_some hk
          rw [hp] at hm
          rcases List.mem_append.1 hm with hm | hm
          · have := failed_placed hff' hu hc hm
            simp [placed, hpc] at this
          · simp only [List.mem_cons, reduceCtorEq, false_or] at hm
            have hv2 : exec cap (newFile init) (pre ++ [.step i]) = some v := by rw [exec_app hu]; simp only [exec, hv, Option.bind_some]
            have hw := wf_reached hu hc
            simp only [wf, wfPc, hpc] at hw
            simp only [act, hc, Option.bind_some, step, hpc, Option.some.injEq] at hv
            have hl := (List.getElem?_eq_some_iff.1 hc).1
            refine no_fail_ahead (pre := pre ++ [.step i]) (rest := rest) (by simpa using hff') hv2 hrest'
              (c := { c with pc := .add c.data.length }) (i := i) ?_ (.inl (by simp [placed, hw])) k hm
            rw [← hv]; simp [List.getElem?_set, hl])
      (by
        intro i k c ha hc
        subst ha
        have hpc := hff pre i k rest u c hp hu hc
        refine ⟨hpc, ?_⟩
        obtain ⟨k', hk⟩ := failOf_mem (as := as) (i := i) (k := k) (by rw [hp]; simp)
        rw [hk]
        have hm := failOf_some hk
        rw [hp] at hm
        rcases List.mem_append.1 hm with hm | hm
        · have := failed_placed hff' hu hc hm
          simp [placed, hpc] at this
        · rcases List.mem_cons.1 hm with hm | hm
          · cases hm; rfl
          · exfalso
            have hv2 : exec cap (newFile init) (pre ++ [.fail i k]) = some v := by rw [exec_app hu]; simp only [exec, hv, Option.bind_some]
            have hw := wf_reached hu hc
            simp only [wf, wfPc, hpc] at hw
            simp only [act, hc, Option.bind_some, fail, hpc, Option.some.injEq] at hv
            have hl := (List.getElem?_eq_some_iff.1 hc).1
            refine no_fail_ahead (pre := pre ++ [.fail i k]) (rest := rest) (by simpa using hff') hv2 hrest'
              (c := { c with err := true, pc := .add (c.data.take k).length }) (i := i) ?_ (.inl (by simp [placed, hw])) k' hm
            rw [← hv]; simp [List.getElem?_set, hl])
      (by
        intro x hx
        obtain ⟨d, hd, hs⟩ := hchs x hx
        exact hsent x d hd hs)
      (by
        intro i c hc x hx
        obtain ⟨d, hd, hs⟩ := hadd i c hc x hx
        exact hsent x d hd hs)
      (by
        intro i c hc
        have := invB.noErr i _ (hlog i c hc)
        simpa using this)
    refine ih (pre ++ [a]) v v' (qs ++ [other (failOf as) u.log.length a]) (by rw [hp]; simp)
      (by rw [exec_app hu]; simp only [exec, hv, Option.bind_some]) ?_ ?_ hsim' ?_
    · intro b hb
      rcases List.mem_append.1 hb with hb | hb
      · exact hq b hb
      · rw [List.mem_singleton] at hb
        subst hb
        cases a with
        | reuse sync i d =>
          cases sync with
          | true => rfl
          | false => exact absurd (by rw [hp]; simp) (hre i d)
        | _ => trivial
    · rw [exec_app hu']; simp only [exec, hv', Option.bind_some]
    · intro i d hd x hx
      have key : ∃ e, u.log[x]? = some e ∧ sent e = true := by
        rcases add_act hv hd hx with ⟨c, hc, hcx⟩ | hx
        · exact hadd i c hc x hcx
        · exact hchs x hx
      obtain ⟨e, he, hse⟩ := key
      obtain ⟨f, hf, hh⟩ := chg_exec (cap := cap) (as := [a]) (t := v) (by simp only [exec, hv, Option.bind_some]) he
      exact ⟨f, hf, (hh (wf_reached hu he)).2.2 hse⟩

end Gofer.Fastio
