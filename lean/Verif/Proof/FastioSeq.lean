import Verif.Proof.FastioSim
import Mathlib.Data.List.Induction

/-! # `fastio`: calls that do not overlap take the fast path -/
namespace Gofer.Fastio

def seqPc : Pc → Bool | .enter | .lock | .check | .write | .add _ | .unlock | .dec => true | _ => false

def actN (log : List Call) : Nat := match log.getLast? with | some c => if active c then 1 else 0 | none => 0

/-- At most the last call is in flight, in the fast path; the queue is empty. -/
structure InvS (s : St) : Prop where
  wc : s.wc = 0
  cc : s.cc = actN s.log
  pcs : ∀ (i : Nat) (c : Call), s.log[i]? = some c → c.pc = .ret ∨ (i + 1 = s.log.length ∧ seqPc c.pc = true)

theorem actN_last {log : List Call} {i : Nat} (h : i + 1 = log.length) (c : Call) (hi : log[i]? = some c) : actN log = if active c then 1 else 0 := by
  have : log.getLast? = some c := by rw [List.getLast?_eq_getElem?, ← hi]; congr 1; omega
  simp [actN, this]

theorem invS_set {s t : St} {i : Nat} {c c' : Call} (h : InvS s) (hi : s.log[i]? = some c) (hl : t.log = s.log.set i c') (hc : c.pc ≠ .ret)
    (hw : t.wc = s.wc) (hcc : t.cc = if active c' then 1 else 0) (hp : c'.pc = .ret ∨ seqPc c'.pc = true) : InvS t := by
  have hil : i + 1 = s.log.length := ((h.pcs i c hi).resolve_left hc).1
  have hlt := (List.getElem?_eq_some_iff.1 hi).1
  refine ⟨by rw [hw, h.wc], ?_, ?_⟩
  · rw [hcc, hl, actN_last (i := i) (by simpa using hil) c' (by simp [hlt])]
  · intro j d hd
    rw [hl] at hd
    rcases get_set hd with ⟨rfl, rfl⟩ | hd
    · exact hp.imp_right fun h => ⟨by rw [hl]; simpa using hil, h⟩
    · refine (h.pcs j d hd).imp_right fun h => ⟨by rw [hl]; simpa using h.1, h.2⟩

theorem invS_act {cap : Nat} {s t : St} {a : Act} (h : InvS s) (ht : act cap s a = some t)
    (hst : ∀ sync bs, a = .start sync bs → ∀ c ∈ s.log, c.pc = .ret) : InvS t := by
  cases a with
  | start sync bs =>
    have hret := hst sync bs rfl
    simp only [act, Option.some.injEq] at ht
    subst ht
    refine ⟨h.wc, ?_, ?_⟩
    · rw [h.cc]
      have h0 : actN s.log = 0 := by
        unfold actN
        split
        · rename_i c hc
          have := hret c (List.mem_of_getLast? hc)
          simp [active, this]
        · rfl
      rw [h0]
      simp [actN, active]
    · intro i c hc
      simp only [List.getElem?_append] at hc
      split at hc
      · exact .inl (hret c (List.mem_of_getElem? hc))
      · rw [List.getElem?_singleton] at hc
        split at hc
        · cases hc
          exact .inr ⟨by simp; omega, rfl⟩
        · cases hc
  | step i =>
    obtain ⟨c, hi, ht⟩ := Option.bind_eq_some_iff.1 ht
    have hpc := h.pcs i c hi
    by_cases hr : c.pc = .ret
    · simp [step, hr] at ht
    obtain ⟨hil, hsp⟩ := hpc.resolve_left hr
    have hcc := h.cc
    rw [actN_last hil c hi] at hcc
    unfold step at ht
    split at ht
    case h_1 hp =>
      have h0 : s.cc = 0 := by rw [hcc]; simp [active, hp]
      simp only [Option.some.injEq, stepEnter, h0, Nat.zero_add, Nat.le_refl, if_true] at ht
      exact invS_set h hi (congrArg St.log ht).symm hr (by rw [← ht]) (by rw [← ht]; simp [active]) (.inr rfl)
    case h_2 hp =>
      unfold stepLock at ht
      split at ht <;> split at ht <;> simp only [Option.some.injEq, reduceCtorEq] at ht
      all_goals exact invS_set h hi (congrArg St.log ht).symm hr (by rw [← ht]; rfl) (by rw [← ht]; simpa [goto, active, hp] using hcc) (.inr rfl)
    case h_3 hp =>
      simp only [h.wc, Nat.lt_irrefl, if_false, Option.some.injEq] at ht
      exact invS_set h hi (congrArg St.log ht).symm hr (by rw [← ht]; rfl) (by rw [← ht]; simpa [goto, active, hp] using hcc) (.inr rfl)
    case h_4 hp =>
      simp only [Option.some.injEq] at ht
      exact invS_set h hi (congrArg St.log ht).symm hr (by rw [← ht]) (by rw [← ht]; simpa [goto, active, hp] using hcc) (.inr rfl)
    case h_5 n hp =>
      simp only [Option.some.injEq] at ht
      exact invS_set h hi (congrArg St.log ht).symm hr (by rw [← ht]) (by rw [← ht]; simpa [goto, active, hp] using hcc) (.inr rfl)
    case h_6 hp =>
      simp only [Option.some.injEq, stepUnlock] at ht
      split at ht
      all_goals exact invS_set h hi (congrArg St.log ht).symm hr (by rw [← ht]; rfl) (by rw [← ht]; simpa [goto, active, hp] using hcc) (.inr rfl)
    case h_21 hp =>
      simp only [Option.some.injEq] at ht
      have h1 : s.cc = 1 := by rw [hcc]; simp [active, hp]
      exact invS_set h hi (congrArg St.log ht).symm hr (by rw [← ht]; rfl) (by rw [← ht]; simp [goto, active, h1]) (.inl rfl)
    all_goals
      rename_i hp
      rw [hp] at hsp
      exact absurd hsp (by simp [seqPc])
  | timeout i =>
    obtain ⟨c, hi, ht⟩ := Option.bind_eq_some_iff.1 ht
    split at ht
    · rename_i hp
      have := h.pcs i c hi
      simp [hp, seqPc] at this
    · cases ht
  | spill i k =>
    obtain ⟨c, hi, ht⟩ := Option.bind_eq_some_iff.1 ht
    unfold spill at ht
    split at ht
    · rename_i x hp
      have := h.pcs i c hi
      simp [hp, seqPc] at this
    · cases ht
  | fail i k =>
    obtain ⟨c, hi, ht⟩ := Option.bind_eq_some_iff.1 ht
    have hpc := h.pcs i c hi
    unfold fail at ht
    split at ht
    · rename_i hp
      have hil := (hpc.resolve_left (by simp [hp])).1
      have hcc := h.cc
      rw [actN_last hil c hi] at hcc
      simp only [Option.some.injEq] at ht
      exact invS_set h hi (congrArg St.log ht).symm (by simp [hp]) (by rw [← ht]) (by rw [← ht]; simpa [active, hp] using hcc) (.inr rfl)
    · rename_i x hp; simp [hp, seqPc] at hpc
    · rename_i hp; simp [hp, seqPc] at hpc
    · cases ht
  | reuse sync i d =>
    obtain ⟨c, hi, ht⟩ := Option.bind_eq_some_iff.1 ht
    split at ht
    · rename_i hp
      simp only [Option.some.injEq] at ht
      subst ht
      have hlt := (List.getElem?_eq_some_iff.1 hi).1
      refine ⟨h.wc, ?_, ?_⟩
      · rw [h.cc]
        unfold actN
        rw [List.getLast?_eq_getElem?, List.getLast?_eq_getElem?, List.length_set, List.getElem?_set]
        by_cases hil : i = s.log.length - 1
        · rw [if_pos hil, if_pos hlt, ← hil, hi]
          rfl
        · rw [if_neg hil]
      · intro j e he
        rcases get_set he with ⟨rfl, rfl⟩ | he
        · exact .inl hp.1
        · exact (h.pcs j e he).imp_right fun h => ⟨by simpa using h.1, h.2⟩
    · cases ht

/-- Calls do not overlap. -/
def Sequential (cap : Nat) (init : List UInt8) (as : List Act) : Prop :=
  ∀ (pre : List Act) (sync : Bool) (bs : List UInt8) (rest : List Act) (u : St), as = pre ++ .start sync bs :: rest →
    exec cap (newFile init) pre = some u → ∀ c ∈ u.log, c.pc = .ret

theorem invS_exec {cap : Nat} {init : List UInt8} {as : List Act} (hq : Sequential cap init as) : ∀ (pre rest : List Act) (u : St), as = pre ++ rest →
    exec cap (newFile init) pre = some u → InvS u := by
  intro pre
  induction pre using List.reverseRecOn with
  | nil =>
    intro rest u _ hu
    simp only [exec, Option.some.injEq] at hu
    subst hu
    exact ⟨rfl, rfl, by intro i c hc; simp [newFile] at hc⟩
  | append_singleton pre a ih =>
    intro rest u hp hu
    obtain ⟨v, hv, hu⟩ := exec_split hu
    obtain ⟨w, hw, hu⟩ := Option.bind_eq_some_iff.1 hu
    cases hu
    refine invS_act (ih (a :: rest) v (by rw [hp]; simp) hv) hw ?_
    rintro sync bs rfl
    exact hq pre sync bs rest v (by rw [hp]; simp) hv

theorem seq_fast {cap : Nat} {init : List UInt8} {as : List Act} {s : St} (hq : Sequential cap init as) (h : exec cap (newFile init) as = some s) : FastFails cap init as := by
  intro pre i k rest u c hp hu hc
  have hs := invS_exec hq pre _ u hp hu
  have h' := h
  rw [hp] at h'
  obtain ⟨u1, e1, h2⟩ := exec_split h'
  rw [hu] at e1; cases e1
  obtain ⟨v, hv, _⟩ := Option.bind_eq_some_iff.1 h2
  simp only [act, hc, Option.bind_some] at hv
  have hpc := hs.pcs i c hc
  unfold fail at hv
  split at hv
  · assumption
  · rename_i x hp; simp [hp, seqPc] at hpc
  · rename_i hp; simp [hp, seqPc] at hpc
  · cases hv

end Gofer.Fastio
