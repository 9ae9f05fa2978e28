import Verif.Proof.Gosignal

/-! # Signals (C76, C120) -/
namespace Gofer.Props.Gosignal
open Gofer.Gosignal

open Classical in
/-- C76: whatever signals arrive and whenever the goroutines run, the function given to a call of `ListenSignalEvent` is called at most once, and then
with the first signal that arrived since that call and is one of those asked for (any, if none was named). When nothing can go on, it has been called
if there was such a signal: the first one is not lost. -/
theorem C76_once (as : List Act) (s : St) (h : exec init as = some s) (i : Nat) (l : Lis) (hl : s.lis[i]? = some l) :
    (calls i s.log = [] ∨ ∃ g, calls i s.log = [g] ∧ ((since i s.log).filter (fun g => decide (For l.sigs g))).head? = some g) ∧
    (quiescent s → calls i s.log = ((since i s.log).filter (fun g => decide (For l.sigs g))).head?.toList) := by
  have I := (inv_exec h).ok i l hl
  have e : (since i s.log).filter (fun g => decide (For l.sigs g)) = mine l.sigs i s.log := by
    rw [mine]; congr 1; funext g
    rw [Bool.eq_iff_iff, wants_iff]; simp
  rw [e]
  constructor
  · unfold LOk at I
    cases hp : l.pc with
    | wait => rw [hp] at I; exact .inl I.1
    | got g => rw [hp] at I; exact .inl I.1
    | calling g => rw [hp] at I; exact .inr ⟨g, I⟩
    | done => rw [hp] at I; exact .inr I
  · intro q
    have q := q i
    simp only [step, goStep, hl] at q
    unfold LOk at I
    cases hp : l.pc with
    | wait =>
      rw [hp] at I
      simp only [hp] at I q
      cases hb : l.buf with
      | cons g b => simp [hb] at q
      | nil =>
        rw [hb] at I
        cases hm : mine l.sigs i s.log with
        | nil => simp [I.1]
        | cons x y => rw [hm] at I; simp at I
    | got g => simp [hp] at q
    | calling g => simp [hp] at q
    | done =>
      rw [hp] at I
      obtain ⟨g, a, b⟩ := I
      rw [a, b]; rfl

/-- Two signals before the goroutine runs; the function is called with the first that was asked for. -/
example : ∃ s, exec init [.listen [2, 15], .signal 1, .signal 15, .signal 2, .step 0, .step 0, .step 0, .signal 2] = some s ∧
    calls 0 s.log = [15] ∧ since 0 s.log = [1, 15, 2, 2] ∧ defaults s.log = [1] := ⟨_, rfl, by decide, by decide, by decide⟩

/-- C120: from a call of `ListenSignalEvent` on, none of its signals ever has its default action again, also after the function has been called
and although it is not called again: later ones are swallowed. -/
theorem C120_swallowed (as bs : List Act) (s t : St) (h : exec init as = some s) (i : Nat) (l : Lis) (hl : s.lis[i]? = some l) (ht : exec s bs = some t)
    (g : Nat) (hg : For l.sigs g) :
    (defaults t.log).count g = (defaults s.log).count g ∧ (calls i s.log ≠ [] → calls i t.log = calls i s.log) := by
  obtain ⟨⟨l', hl', _⟩, hd⟩ := stay_exec bs ht hl
  refine ⟨hd g hg, fun hc => ?_⟩
  have happ : ∀ (bs : List Act) (s t : St), exec s bs = some t → Inv s → (∃ d, t.log = d ++ s.log) := by
    intro bs
    induction bs with
    | nil => intro s t e _; cases e; exact ⟨[], rfl⟩
    | cons a bs ih =>
      intro s t e I
      simp only [exec, Option.bind_eq_some_iff] at e
      obtain ⟨u, hu, e⟩ := e
      obtain ⟨d, hd⟩ := ih u t e (inv_step s a u I hu)
      have : ∃ d', u.log = d' ++ s.log := by
        cases a with
        | listen sigs => simp only [step, Option.some.injEq] at hu; subst hu; exact ⟨[_], rfl⟩
        | signal g =>
          simp only [step, Option.some.injEq] at hu; subst hu
          simp only
          split
          · exact ⟨[_], rfl⟩
          · exact ⟨[_, _], rfl⟩
        | step j =>
          simp only [step, goStep] at hu
          split at hu
          · cases hu
          · split at hu
            · split at hu
              · cases hu; exact ⟨[], rfl⟩
              · cases hu
            · cases hu; exact ⟨[_], rfl⟩
            · cases hu; exact ⟨[_], rfl⟩
            · cases hu
      obtain ⟨d', hd'⟩ := this
      exact ⟨d ++ d', by rw [hd, hd', List.append_assoc]⟩
  obtain ⟨d, hdl⟩ := happ bs s t ht (inv_exec h)
  have I' : Inv t := exec_inv inv_step bs s t (inv_exec h) ht
  have hcount : (calls i t.log).length ≤ 1 := by
    have := I'.ok i l' hl'
    unfold LOk at this
    cases hp : l'.pc <;> simp only [hp] at this
    · simp [this.1]
    · simp [this.1]
    · simp [this.1]
    · obtain ⟨g, a, _⟩ := this; simp [a]
  have hsplit : calls i t.log = calls i s.log ++ calls i d := by
    rw [hdl]; simp [calls]
  rw [hsplit] at hcount ⊢
  cases hcs : calls i s.log with
  | nil => exact absurd hcs hc
  | cons x y =>
    rw [hcs] at hcount
    simp only [List.cons_append, List.length_cons, List.length_append] at hcount
    have h1 : (calls i d).length = 0 := by omega
    rw [List.length_eq_zero_iff.1 h1]; simp

/-- The second interrupt does nothing. -/
example : ∃ s t, exec init [.listen [2], .signal 2, .step 0, .step 0, .step 0] = some s ∧ exec s [.signal 2, .signal 2] = some t ∧
    calls 0 s.log = [2] ∧ calls 0 t.log = [2] ∧ defaults t.log = [] ∧ quiescent t := by
  refine ⟨_, _, rfl, rfl, by decide, by decide, by decide, ?_⟩
  intro i
  match i with
  | 0 => rfl
  | n + 1 => rfl

end Gofer.Props.Gosignal
