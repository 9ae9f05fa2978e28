import Verif.Proof.GoPoolQuiet

/-! # `GoPool`: closing -/
namespace Gofer.GoPool
open Gofer.Count

/-- No task is between the dispatcher's look at `close` and a worker's `f()`. -/
def calmD : DPc → Bool
  | .idle | .range | .chk _ | .dec | .last | .unlock => true
  | _ => false

section
variable {cfg : Cfg} {s t : St}

theorem mono_tr (ht : Tr cfg s t) : (t.poolClosed = false → s.poolClosed = false) ∧ (t.cancelled = false → s.cancelled = false) ∧ (s.flag = true → t.flag = true) := by
  cases ht <;> simp_all [St.goto, St.wset]

/-- What holds until `Close` cancels the context. -/
structure Pre (s : St) : Prop where
  ko : ∀ (i : Nat) (c : Call), s.log[i]? = some c → kindOk c = true
  oc : ∀ x, occ s x = accN s.log x
  tn : Tn s
  aw : Awake s

theorem pre_new : Pre new :=
  ⟨by simp [new], by intro x; simp [occ, new, holds, accN], by simp [Tn, new, mid], by intro _ h; exact absurd rfl h⟩

theorem start_keep {c : Call} (hc : c = ⟨.go, .check⟩ ∨ c = ⟨.close, .cas⟩ ∨ ∃ off, c = ⟨.turn off, .tchk⟩) : kindOk c = true ∧ acc c = false ∧ atInc c = false := by
  rcases hc with rfl | rfl | ⟨off, rfl⟩ <;> exact ⟨rfl, rfl, rfl⟩

theorem pre_act {a : Act} (h : Pre s) (hm : ∀ (i : Nat) (c : Call), a = .step i → s.log[i]? = some c → c.pc = .tryl → s.disp ≠ .unlock)
    (hw : ∀ f, s.disp = .wait f → s.poolClosed = false) (hb : ∀ (w : Nat) (k : Worker), s.workers[w]? = some k → k.buf ≠ none → s.cancelled = false)
    (ht : act cfg s a = some t) : Pre t := by
  have aw := awake_act h.tn hw h.aw hm ht
  cases hca : isCall a
  · have tr := tr_act ht hca
    refine ⟨ko_tr h.ko tr, fun x => ?_, tn_tr h.ko h.tn hw tr, aw⟩
    have h1 := (occ_tr h.ko tr x).2 hw hb
    have h2 := h.oc x
    omega
  · obtain ⟨_, c, hcc, rfl⟩ := start_act ht hca
    obtain ⟨k1, k2, k3⟩ := start_keep (c := c) (by
      rcases hcc with ⟨_, h⟩ | ⟨_, h⟩ | ⟨off, _, h⟩
      · exact .inl h
      · exact .inr (.inl h)
      · exact .inr (.inr ⟨off, h⟩))
    refine ⟨?_, ?_, ?_, aw⟩
    · intro i e hi
      replace hi := get_app hi
      rcases hi with ⟨hi, _⟩ | ⟨_, rfl⟩
      · exact h.ko i e hi
      · exact k1
    · intro x
      rw [accN_app k2]
      exact h.oc x
    · have := h.tn
      simp only [Tn, List.countP_append, List.countP_singleton, k3, Bool.false_eq_true, if_false] at this ⊢
      exact this

theorem mono_act {a : Act} (ht : act cfg s a = some t) : (t.poolClosed = false → s.poolClosed = false) ∧ (t.cancelled = false → s.cancelled = false) ∧ (s.flag = true → t.flag = true) := by
  cases hca : isCall a
  · exact mono_tr (tr_act ht hca)
  · obtain ⟨_, c, _, rfl⟩ := start_act ht hca
    exact ⟨id, id, id⟩

theorem mono_exec {as : List Act} (ht : exec cfg s as = some t) : (t.poolClosed = false → s.poolClosed = false) ∧ (t.cancelled = false → s.cancelled = false) := by
  induction as generalizing s with
  | nil => simp only [exec, Option.some.injEq] at ht; subst ht; exact ⟨id, id⟩
  | cons a as ih =>
    simp only [exec] at ht
    cases ha : act cfg s a with
    | none => simp [ha] at ht
    | some u =>
      simp only [ha, Option.bind_some] at ht
      have h1 := ih ht
      have h2 := mono_act ha
      exact ⟨fun e => h2.1 (h1.1 e), fun e => h2.2.1 (h1.2 e)⟩

theorem pre_exec {as : List Act} (h : Pre s) (hm : NoMiss cfg s as) (ht : exec cfg s as = some t) (hp : t.poolClosed = false) (hc : t.cancelled = false) : Pre t := by
  induction as generalizing s with
  | nil => simp only [exec, Option.some.injEq] at ht; subst ht; exact h
  | cons a as ih =>
    have h1 := mono_exec ht
    simp only [exec] at ht
    cases ha : act cfg s a with
    | none => simp [ha] at ht
    | some u =>
      simp only [ha, Option.bind_some] at ht
      exact ih (pre_act h hm.1 (fun _ _ => h1.1 hp) (fun _ _ _ _ => h1.2 hc) ha) (hm.2 u ha) ht

/-- What holds from `g.close = true` in `Close` on, if it came at a calm moment. -/
structure CL (s : St) : Prop where
  pre : Pre s
  close : s.close = true
  flag : s.flag = true
  nt : ∀ (i : Nat) (c : Call), s.log[i]? = some c → c.pc ≠ .tset
  disp : calmD s.disp = true
  buf : ∀ (w : Nat) (k : Worker), s.workers[w]? = some k → k.buf = none

theorem nt_tr (hf : s.flag = true) (nt : ∀ (i : Nat) (c : Call), s.log[i]? = some c → c.pc ≠ .tset) (ht : Tr cfg s t) :
    ∀ (i : Nat) (c : Call), t.log[i]? = some c → c.pc ≠ .tset := by
  have key : ∀ {j : Nat} {c' : Call} {pc : Pc}, pc ≠ .tset →
      ∀ (i : Nat) (c : Call), (s.log.set j { c' with pc := pc })[i]? = some c → c.pc ≠ .tset := by
    intro j c' pc hk i c hi
    replace hi := get_set_cases hi
    rcases hi with ⟨rfl, rfl⟩ | ⟨_, hi⟩
    · exact hk
    · exact nt i c hi
  cases ht
  case tchk i c pc hi hp hc =>
    rcases hc with rfl | ⟨_, hf'⟩
    · exact key (by simp)
    · rw [hf] at hf'; cases hf'
  all_goals first
    | exact nt
    | exact key (by simp)

theorem calm_tr (hc : s.close = true) (nt : ∀ (i : Nat) (c : Call), s.log[i]? = some c → c.pc ≠ .tset) (hd : calmD s.disp = true)
    (hb : ∀ (w : Nat) (k : Worker), s.workers[w]? = some k → k.buf = none) (ht : Tr cfg s t) :
    t.close = true ∧ calmD t.disp = true ∧ ∀ (w : Nat) (k : Worker), t.workers[w]? = some k → k.buf = none := by
  have wk : ∀ {w : Nat} {k' : Worker}, k'.buf = none → ∀ (j : Nat) (k : Worker), (s.workers.set w k')[j]? = some k → k.buf = none := by
    intro w k' he j k hj
    replace hj := get_set_cases hj
    rcases hj with ⟨rfl, rfl⟩ | ⟨_, hj⟩
    · exact he
    · exact hb j k hj
  cases ht
  case tset i c b hi hp => exact absurd hp (nt i c hi)
  case chk f h1 h2 => rw [hc] at h2; cases h2
  case sel w f k h1 h2 h3 => rw [hb w k h1] at h3; cases h3
  case put1 w k d h1 h2 => exact ⟨hc, hd, wk (hb w k h1)⟩
  case put2 w k d h1 h2 h3 h4 => exact ⟨hc, hd, wk (hb w k h1)⟩
  case put2D w k d h1 h2 h3 => exact ⟨hc, hd, wk (hb w k h1)⟩
  case put3C w k h1 h2 h3 => exact ⟨hc, hd, wk (hb w k h1)⟩
  case put3 w k d h1 h2 h3 h4 => exact ⟨hc, hd, wk (hb w k h1)⟩
  case quit w k h1 h2 h3 => exact ⟨hc, hd, wk (hb w k h1)⟩
  case finish w f k d h1 h2 => exact ⟨hc, hd, wk (hb w k h1)⟩
  all_goals first
    | exact ⟨hc, hd, hb⟩
    | exact ⟨hc, rfl, hb⟩
    | exact ⟨rfl, hd, hb⟩
    | (rename_i h1; rw [h1] at hd; cases hd; done)
    | (rename_i h1 _; rw [h1] at hd; cases hd; done)
    | (rename_i h1 _ _; rw [h1] at hd; cases hd; done)

theorem cl_act {a : Act} (h : CL s) (hm : ∀ (i : Nat) (c : Call), a = .step i → s.log[i]? = some c → c.pc = .tryl → s.disp ≠ .unlock)
    (ht : act cfg s a = some t) : CL t := by
  have pre := pre_act h.pre hm (fun f hd => by have := h.disp; rw [hd] at this; cases this) (fun w k hk hb => absurd (h.buf w k hk) hb) ht
  cases hca : isCall a
  · have tr := tr_act ht hca
    obtain ⟨h1, h2, h3⟩ := calm_tr h.close h.nt h.disp h.buf tr
    exact ⟨pre, h1, (mono_tr tr).2.2 h.flag, nt_tr h.flag h.nt tr, h2, h3⟩
  · obtain ⟨_, c, hcc, rfl⟩ := start_act ht hca
    refine ⟨pre, h.close, h.flag, ?_, h.disp, h.buf⟩
    intro i e hi
    replace hi := get_app hi
    rcases hi with ⟨hi, _⟩ | ⟨_, rfl⟩
    · exact h.nt i e hi
    · rcases hcc with ⟨_, rfl⟩ | ⟨_, rfl⟩ | ⟨off, _, rfl⟩ <;> simp

theorem cl_exec {as : List Act} (h : CL s) (hm : NoMiss cfg s as) (ht : exec cfg s as = some t) : CL t := by
  induction as generalizing s with
  | nil => simp only [exec, Option.some.injEq] at ht; subst ht; exact h
  | cons a as ih =>
    simp only [exec] at ht
    cases ha : act cfg s a with
    | none => simp [ha] at ht
    | some u =>
      simp only [ha, Option.bind_some] at ht
      exact ih (cl_act h hm.1 ha) (hm.2 u ha) ht

theorem cl_quiet (h : CL s) (hcr : s.crash = false) (hq : Quiescent cfg s) {i : Nat} (ha : Accepted s i) : i ∈ s.started := by
  have h3 := hq .disp rfl (by simp)
  have hd : s.disp = .idle ∨ (s.disp = .range ∧ s.q = []) := by
    have hc := h.disp
    cases hd : s.disp <;> rw [hd] at hc <;> first
      | (cases hc; done)
      | (simp [act, hcr, stepDisp, hd, h.close] at h3; done)
      | skip
    · exact .inl rfl
    · right
      refine ⟨rfl, ?_⟩
      cases hq : s.q with
      | nil => rfl
      | cons f q => simp [act, hcr, stepDisp, hd, hq] at h3
  refine started_of h.pre.oc (h.pre.aw.empty hcr hq hd) ?_ h.buf ?_ ha
  · intro x
    rcases hd with hd | ⟨hd, _⟩ <;> rw [hd] <;> rfl
  · intro j g hj hp
    have := hq (.free j) rfl (by simp)
    simp [act, hcr, hj, hp] at this

end

end Gofer.GoPool
