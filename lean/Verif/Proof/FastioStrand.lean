import Verif.Proof.FastioJam

/-! # `fastio`: when data is left in the queue -/
namespace Gofer.Fastio
open Gofer.Count

/-- A `Write` of the slow path that is leaving or has left. -/
def quit (c : Call) : Bool := match c.pc with | .dec | .ret => !c.fast && !c.sync | _ => false

/-- In the loop of `ioWrite`. -/
def loopPc : Pc → Bool | .ioRecv | .ioAdd _ | .ioDec => true | _ => false

/-- While `m.ioend` is false. -/
def emptyPc : Pc → Bool | .ioRecv | .ioAdd _ | .ioDec | .ioEnd => true | _ => false

/-- How one call changes in one event: not its place, or by its own step. -/
theorem pc_back {cap : Nat} {s t : St} {a : Act} (hc : Clean a) (ht : act cap s a = some t) {i : Nat} {d : Call} (hd : t.log[i]? = some d) :
    (s.log[i]? = none ∧ d.pc = .enter) ∨
    ∃ c, s.log[i]? = some c ∧ d.sync = c.sync ∧ ((d.pc = c.pc ∧ d.fast = c.fast) ∨
      (a = .timeout i ∧ c.pc = .wait ∧ d.pc = .test) ∨
      (a = .step i ∧ step cap s i c = some t)) := by
  cases a with
  | start sync bs =>
    simp only [act, Option.some.injEq] at ht
    subst ht
    rcases get_app hd with ⟨hd, _⟩ | ⟨hl, rfl⟩
    · exact .inr ⟨d, hd, rfl, .inl ⟨rfl, rfl⟩⟩
    · exact .inl ⟨by rw [hl]; simp, rfl⟩
  | fail i k => exact hc.elim
  | timeout k =>
    simp only [act] at ht
    cases hk : s.log[k]? with
    | none => simp [hk] at ht
    | some c =>
      simp only [hk, Option.bind_some] at ht
      split at ht
      · rename_i hwt
        simp only [Option.some.injEq] at ht; subst ht
        rcases get_set_cases hd with ⟨rfl, rfl⟩ | ⟨_, hd⟩
        · exact .inr ⟨c, hk, rfl, .inr (.inl ⟨rfl, hwt, rfl⟩)⟩
        · exact .inr ⟨d, hd, rfl, .inl ⟨rfl, rfl⟩⟩
      · cases ht
  | spill k n =>
    simp only [act] at ht
    cases hk : s.log[k]? with
    | none => simp [hk] at ht
    | some c =>
      simp only [hk, Option.bind_some, spill] at ht
      split at ht
      · simp only [Option.some.injEq] at ht; subst ht
        rcases get_set_cases hd with ⟨rfl, rfl⟩ | ⟨_, hd⟩
        · exact .inr ⟨c, hk, rfl, .inl ⟨rfl, rfl⟩⟩
        · exact .inr ⟨d, hd, rfl, .inl ⟨rfl, rfl⟩⟩
      · cases ht
  | reuse sync k e =>
    simp only [act] at ht
    cases hk : s.log[k]? with
    | none => simp [hk] at ht
    | some c =>
      simp only [hk, Option.bind_some] at ht
      split at ht
      · simp only [Option.some.injEq] at ht; subst ht
        rcases get_set_cases hd with ⟨rfl, rfl⟩ | ⟨_, hd⟩
        · exact .inr ⟨c, hk, rfl, .inl ⟨rfl, rfl⟩⟩
        · exact .inr ⟨d, hd, rfl, .inl ⟨rfl, rfl⟩⟩
      · cases ht
  | step k =>
    simp only [act] at ht
    cases hk : s.log[k]? with
    | none => simp [hk] at ht
    | some c =>
      simp only [hk, Option.bind_some] at ht
      by_cases hik : i = k
      · subst hik
        refine .inr ⟨c, hk, ?_, .inr (.inr ⟨rfl, ht⟩)⟩
        obtain ⟨sync, arg, data, fast, pc, off, done, bw, wds, ioErr, err⟩ := c
        cases pc
        case ioRecv =>
          simp only [step, stepRecv] at ht
          split at ht
          · cases ht
          · split at ht
            · cases ht
            · rename_i e he
              split at ht
              · cases ht
              · rename_i c2 hc2
                simp only [Option.some.injEq] at ht; subst ht
                rcases get_set_cases hd with ⟨_, rfl⟩ | ⟨hne, _⟩
                · rcases get_set_cases hc2 with ⟨rfl, rfl⟩ | ⟨_, hx⟩
                  · rw [hk] at he; cases he; rfl
                  · rw [hk] at hx; cases hx; rfl
                · exact absurd rfl hne
        case ioClose =>
          simp only [step, stepClose] at ht
          split at ht
          · split at ht
            · cases ht
            · rename_i e he
              split at ht
              · cases ht
              · rename_i c2 hc2
                simp only [Option.some.injEq] at ht; subst ht
                rcases get_set_cases hd with ⟨_, rfl⟩ | ⟨hne, _⟩
                · rcases get_set_cases hc2 with ⟨rfl, rfl⟩ | ⟨_, hx⟩
                  · rw [hk] at he; cases he; rfl
                  · rw [hk] at hx; cases hx; rfl
                · exact absurd rfl hne
          · split at ht <;> simp only [Option.some.injEq] at ht <;> subst ht <;>
              (rcases get_set_cases hd with ⟨_, rfl⟩ | ⟨hne, _⟩
               · rfl
               · exact absurd rfl hne)
        all_goals
          simp only [step, stepEnter, stepLock, stepUnlock, stepTryLock] at ht
          (repeat' split at ht) <;>
          first
          | (cases ht; done)
          | (simp only [Option.some.injEq] at ht; subst ht
             rcases get_set_cases hd with ⟨_, rfl⟩ | ⟨hne, _⟩
             · rfl
             · exact absurd rfl hne)
      · have other : ∀ {x : Nat} {e e' : Call}, (s.log.set x e')[i]? = some d → s.log[x]? = some e →
            e'.pc = e.pc → e'.fast = e.fast → e'.sync = e.sync → ∃ c, s.log[i]? = some c ∧ d.sync = c.sync ∧ d.pc = c.pc ∧ d.fast = c.fast := by
          intro x e e' hd he h1 h2 h3
          rcases get_set_cases hd with ⟨rfl, rfl⟩ | ⟨_, hd⟩
          · exact ⟨e, he, h3, h1, h2⟩
          · exact ⟨d, hd, rfl, rfl, rfl⟩
        suffices hs : ∃ c, s.log[i]? = some c ∧ d.sync = c.sync ∧ d.pc = c.pc ∧ d.fast = c.fast by
          obtain ⟨c, h1, h2, h3, h4⟩ := hs
          exact .inr ⟨c, h1, h2, .inl ⟨h3, h4⟩⟩
        obtain ⟨sync, arg, data, fast, pc, off, dn, bw, wds, ioErr, err⟩ := c
        cases pc
        case ioRecv =>
          simp only [step, stepRecv] at ht
          split at ht
          · cases ht
          · split at ht
            · cases ht
            · rename_i e he
              split at ht
              · cases ht
              · simp only [Option.some.injEq] at ht; subst ht
                rcases get_set_cases hd with ⟨h, _⟩ | ⟨_, hd⟩
                · exact absurd h hik
                · exact other hd he rfl rfl rfl
        case ioClose =>
          simp only [step, stepClose] at ht
          split at ht
          · split at ht
            · cases ht
            · rename_i e he
              split at ht
              · cases ht
              · simp only [Option.some.injEq] at ht; subst ht
                rcases get_set_cases hd with ⟨h, _⟩ | ⟨_, hd⟩
                · exact absurd h hik
                · exact other hd he rfl rfl rfl
          · split at ht <;> simp only [Option.some.injEq] at ht <;> subst ht <;>
              (rcases get_set_cases hd with ⟨h, _⟩ | ⟨_, hd⟩
               · exact absurd h hik
               · exact ⟨d, hd, rfl, rfl, rfl⟩)
        all_goals
          simp only [step, stepEnter, stepLock, stepUnlock, stepTryLock] at ht
          (repeat' split at ht) <;>
          first
          | (cases ht; done)
          | (simp only [Option.some.injEq] at ht; subst ht
             rcases get_set_cases hd with ⟨h, _⟩ | ⟨_, hd⟩
             · exact absurd h hik
             · exact ⟨d, hd, rfl, rfl, rfl⟩)

/-- A `Write` of the slow path leaves after its own `ioWrite` or when `m.ioend` is false. -/
theorem quit_next {cap : Nat} {s t : St} {i : Nat} {c d : Call} (hi : s.log[i]? = some c) (hw : wf c = true) (he : c.ioErr = false)
    (ht : step cap s i c = some t) (hd : t.log[i]? = some d) (hq : quit d = true) :
    quit c = true ∨ (c.pc = .unlock ∧ c.fast = false) ∨ (c.pc = .test2 ∧ s.ioend = false) := by
  obtain ⟨sync, arg, data, fast, pc, off, done, bw, wds, ioErr, err⟩ := c
  simp only at he
  subst he
  cases pc
  case ioRecv =>
    exfalso
    simp only [step, stepRecv] at ht
    split at ht
    · cases ht
    · split at ht
      · cases ht
      · split at ht
        · cases ht
        · simp only [Option.some.injEq] at ht; subst ht
          rcases get_set_cases hd with ⟨_, rfl⟩ | ⟨hne, _⟩
          · simp [quit] at hq
          · exact absurd rfl hne
  case ioClose =>
    exfalso
    simp only [step, stepClose] at ht
    split at ht
    · split at ht
      · cases ht
      · rename_i e he
        split at ht
        · cases ht
        · rename_i c2 hc2
          simp only [Option.some.injEq] at ht; subst ht
          rcases get_set_cases hd with ⟨_, rfl⟩ | ⟨hne, _⟩
          · rcases get_set_cases hc2 with ⟨rfl, rfl⟩ | ⟨_, hx⟩
            · rw [hi] at he; cases he; simp [quit] at hq
            · rw [hi] at hx; cases hx; simp [quit] at hq
          · exact absurd rfl hne
    · split at ht
      · rename_i h; simp at h
      · simp only [Option.some.injEq] at ht; subst ht
        rcases get_set_cases hd with ⟨_, rfl⟩ | ⟨hne, _⟩
        · cases fast <;> simp [quit, ioRet] at hq
        · exact absurd rfl hne
  all_goals
    simp only [step, stepEnter, stepLock, stepUnlock, stepTryLock] at ht
    (repeat' split at ht) <;>
    first
    | (cases ht; done)
    | (simp only [Option.some.injEq] at ht; subst ht
       rcases get_set_cases hd with ⟨_, rfl⟩ | ⟨hne, _⟩
       · first
         | (cases sync <;> cases fast <;> simp_all [quit, wf, wfPc, ioRet] <;> done)
         | (revert hq; simp only [quit]; repeat' split
            all_goals simp_all [wf, wfPc])
       · exact absurd rfl hne)

/-- Whoever is in the loop of `ioWrite` stays there while the queue is not empty. -/
theorem loop_next {cap : Nat} {s t : St} {i : Nat} {c d : Call} (ha : InvA s) (hi : s.log[i]? = some c) (hl : loopPc c.pc = true)
    (hch : s.ch ≠ []) (ht : step cap s i c = some t) (hd : t.log[i]? = some d) : loopPc d.pc = true := by
  have hwc := ha.wc
  have hpos : 0 < s.ch.length := by
    cases h : s.ch with
    | nil => exact absurd h hch
    | cons => simp
  obtain ⟨sync, arg, data, fast, pc, off, done, bw, wds, ioErr, err⟩ := c
  cases pc <;> first | (simp [loopPc] at hl; done) | skip
  case ioRecv =>
    simp only [step, stepRecv] at ht
    split at ht
    · cases ht
    · split at ht
      · cases ht
      · split at ht
        · cases ht
        · simp only [Option.some.injEq] at ht; subst ht
          rcases get_set_cases hd with ⟨_, rfl⟩ | ⟨hne, _⟩
          · rfl
          · exact absurd rfl hne
  case ioAdd x =>
    simp only [step] at ht
    split at ht
    · cases ht
    · simp only [Option.some.injEq] at ht; subst ht
      rcases get_set_cases hd with ⟨_, rfl⟩ | ⟨hne, _⟩
      · rfl
      · exact absurd rfl hne
  case ioDec =>
    have := cnt_pos (p := taken) hi rfl
    simp only [step, Option.some.injEq] at ht; subst ht
    rcases get_set_cases hd with ⟨_, rfl⟩ | ⟨hne, _⟩
    · simp only
      rw [if_neg (by omega)]; rfl
    · exact absurd rfl hne

/-- `m.ioend` false: the step of the call that made it false. -/
theorem empty_next {cap : Nat} {s t : St} {i : Nat} {c d : Call} (hl : emptyPc c.pc = true)
    (ht : step cap s i c = some t) (hd : t.log[i]? = some d) : emptyPc d.pc = true ∨ t.ioend = true := by
  obtain ⟨sync, arg, data, fast, pc, off, done, bw, wds, ioErr, err⟩ := c
  cases pc <;> first | (simp [emptyPc] at hl; done) | skip
  case ioRecv =>
    simp only [step, stepRecv] at ht
    split at ht
    · cases ht
    · split at ht
      · cases ht
      · split at ht
        · cases ht
        · simp only [Option.some.injEq] at ht; subst ht
          rcases get_set_cases hd with ⟨_, rfl⟩ | ⟨hne, _⟩
          · exact .inl rfl
          · exact absurd rfl hne
  case ioAdd x =>
    simp only [step] at ht
    split at ht
    · cases ht
    · simp only [Option.some.injEq] at ht; subst ht
      rcases get_set_cases hd with ⟨_, rfl⟩ | ⟨hne, _⟩
      · exact .inl rfl
      · exact absurd rfl hne
  case ioDec =>
    simp only [step, Option.some.injEq] at ht; subst ht
    rcases get_set_cases hd with ⟨_, rfl⟩ | ⟨hne, _⟩
    · simp only
      split <;> exact .inl rfl
    · exact absurd rfl hne
  case ioEnd =>
    simp only [step, Option.some.injEq] at ht; subst ht
    exact .inr rfl

/-- Calls do not disappear. -/
theorem log_grows {cap : Nat} {s t : St} {a : Act} (ht : act cap s a = some t) : s.log.length ≤ t.log.length := by
  cases a with
  | start sync bs => simp only [act, Option.some.injEq] at ht; subst ht; simp
  | step i =>
    simp only [act] at ht
    cases hi : s.log[i]? with
    | none => simp [hi] at ht
    | some c =>
      simp only [hi, Option.bind_some, step, stepEnter, stepLock, stepUnlock, stepTryLock, stepRecv, stepClose] at ht
      (repeat' split at ht) <;>
      first
      | (cases ht; done)
      | (simp only [Option.some.injEq] at ht; subst ht; simp [goto])
  | _ =>
    simp only [act, spill, fail, Option.bind_eq_some_iff] at ht
    obtain ⟨c, _, ht⟩ := ht
    (repeat' split at ht) <;>
    first
    | (cases ht; done)
    | (simp only [Option.some.injEq] at ht; subst ht; simp [goto])

/-- Only the start of `ioWrite` makes `m.ioend` false. -/
theorem ioend_flip {cap : Nat} {s t : St} {a : Act} (ht : act cap s a = some t) (h1 : s.ioend = true) (h2 : t.ioend = false) :
    ∃ (k : Nat) (d : Call), t.log[k]? = some d ∧ emptyPc d.pc = true := by
  cases a with
  | start sync bs => simp only [act, Option.some.injEq] at ht; subst ht; simp_all
  | step i =>
    simp only [act] at ht
    cases hi : s.log[i]? with
    | none => simp [hi] at ht
    | some c =>
      simp only [hi, Option.bind_some] at ht
      by_cases hp : c.pc = .ioSet
      · simp only [step, hp, Option.some.injEq] at ht
        subst ht
        refine ⟨i, { c with pc := .ioRecv }, ?_, rfl⟩
        simp only [goto]
        rw [List.getElem?_set_self (List.getElem?_eq_some_iff.1 hi).1]
      · exfalso
        have : t.ioend = true := by
          simp only [step, stepEnter, stepLock, stepUnlock, stepTryLock, stepRecv, stepClose] at ht
          (repeat' split at ht) <;>
          first
          | (cases ht; done)
          | (exact absurd (by assumption) hp)
          | (simp only [Option.some.injEq] at ht; subst ht; first | exact h1 | rfl)
        rw [this] at h2; cases h2
  | _ =>
    exfalso
    simp only [act, spill, fail, Option.bind_eq_some_iff] at ht
    obtain ⟨c, _, ht⟩ := ht
    have : t.ioend = true := by
      (repeat' split at ht) <;>
      first
      | (cases ht; done)
      | (simp only [Option.some.injEq] at ht; subst ht; exact h1)
    rw [this] at h2; cases h2

/-- `m.ioend` is false only while a call is between `m.ioend = false` and `m.ioend = true`. -/
def Busy (s : St) : Prop := s.ioend = false → ∃ (k : Nat) (c : Call), s.log[k]? = some c ∧ emptyPc c.pc = true

theorem still {cap : Nat} {s t : St} {a : Act} (hc : Clean a) (ht : act cap s a = some t) {k : Nat} {c : Call} (hk : s.log[k]? = some c)
    (hw : c.pc ≠ .wait) : ∃ d, t.log[k]? = some d ∧ (d.pc = c.pc ∨ step cap s k c = some t) := by
  have hlt : k < t.log.length := Nat.lt_of_lt_of_le (List.getElem?_eq_some_iff.1 hk).1 (log_grows ht)
  refine ⟨t.log[k], List.getElem?_eq_getElem hlt, ?_⟩
  rcases pc_back hc ht (List.getElem?_eq_getElem hlt) with ⟨h, _⟩ | ⟨c', h, _, h2⟩
  · rw [hk] at h; cases h
  · rw [hk] at h
    cases h
    rcases h2 with h2 | h2 | h2
    · exact .inl h2.1
    · exact absurd h2.2.1 hw
    · exact .inr h2.2

theorem busy_act {cap : Nat} {s t : St} {a : Act} (h : Busy s) (hc : Clean a) (ht : act cap s a = some t) : Busy t := by
  intro h2
  cases h1 : s.ioend with
  | true => exact ioend_flip ht h1 h2
  | false =>
    obtain ⟨k, c, hk, hp⟩ := h h1
    obtain ⟨d, hd, h3⟩ := still hc ht hk (by intro hw; rw [hw] at hp; simp [emptyPc] at hp)
    rcases h3 with h3 | h3
    · exact ⟨k, d, hd, by rw [h3]; exact hp⟩
    · rcases empty_next hp h3 hd with h4 | h4
      · exact ⟨k, d, hd, h4⟩
      · rw [h2] at h4; cases h4

/-- During the call `i` of `Write`, before its last test of `m.ioend`, another call was between finding the queue empty
and saying so. -/
def Window (cap : Nat) (init : List UInt8) (as : List Act) (i : Nat) : Prop :=
  ∃ pre u k c e, pre <+: as ∧ exec cap (newFile init) pre = some u ∧ u.log[i]? = some c ∧ c.pc = .test2 ∧
    k ≠ i ∧ u.log[k]? = some e ∧ e.pc = .ioEnd

/-- The history invariant. -/
def Strand (cap : Nat) (init : List UInt8) (as : List Act) (t : St) : Prop :=
  ∀ (i : Nat) (d : Call), t.log[i]? = some d → quit d = true → i ∈ t.ch →
    (∃ (k : Nat) (c : Call), t.log[k]? = some c ∧ loopPc c.pc = true) ∨ Window cap init as i

theorem strand_act {cap : Nat} {init : List UInt8} {as : List Act} {s t : St} {a : Act} (ha : InvA s) (hb : InvB init s) (hbt : InvB init t)
    (hbusy : Busy s) (hs : exec cap (newFile init) as = some s) (h : Strand cap init as s) (hc : Clean a) (ht : act cap s a = some t) :
    Strand cap init (as ++ [a]) t := by
  intro i d hd hq hich
  have hsub : ∀ x ∈ s.order, x ∈ t.order := by
    rcases flow hc ht with ⟨_, h2⟩ | ⟨i, c, _, _, ho, _⟩ | ⟨i, c, _, _, ho, _⟩
    · exact h2
    · intro x hx; rw [ho]; exact List.mem_append_left _ hx
    · intro x hx; rw [ho]; exact hx
  have hno : i ∉ s.order := fun hx => by
    have := hbt.nodup
    rw [List.nodup_append] at this
    exact this.2.2 i (hsub i hx) i hich rfl
  have hwin : Window cap init as i → Window cap init (as ++ [a]) i := by
    rintro ⟨pre, u, k, c, e, h1, h2⟩
    exact ⟨pre, u, k, c, e, h1.trans (List.prefix_append _ _), h2⟩
  have hloop : s.ch ≠ [] → (∃ (k : Nat) (c : Call), s.log[k]? = some c ∧ loopPc c.pc = true) →
      ∃ (k : Nat) (c : Call), t.log[k]? = some c ∧ loopPc c.pc = true := by
    rintro hch ⟨k, c, hk, hp⟩
    obtain ⟨e, he, h3⟩ := still hc ht hk (by intro hw; rw [hw] at hp; simp [loopPc] at hp)
    rcases h3 with h3 | h3
    · exact ⟨k, e, he, by rw [h3]; exact hp⟩
    · exact ⟨k, e, he, loop_next ha hk hp hch h3 he⟩
  have old : ∀ c, s.log[i]? = some c → c.pc ≠ .send → i ∈ s.ch := by
    intro c hi hp
    rcases flow hc ht with ⟨h2, _⟩ | ⟨k, c', _, _, _, hch⟩ | ⟨k, c', hk, hp', _, hch⟩
    · have : i ∈ s.order ++ s.ch := by rw [← h2]; exact List.mem_append_right _ hich
      exact (List.mem_append.1 this).resolve_left hno
    · rw [hch] at hich; exact hich
    · rw [hch] at hich
      rcases List.mem_append.1 hich with hx | hx
      · exact hx
      · simp only [List.mem_singleton] at hx
        subst hx
        rw [hi] at hk
        cases hk
        exact absurd hp' hp
  rcases pc_back hc ht hd with ⟨_, h2⟩ | ⟨c, hi, hsy, h2⟩
  · simp [quit, h2] at hq
  · have hcase : quit c = true ∨ (c.pc = .unlock ∧ c.fast = false) ∨ (c.pc = .test2 ∧ s.ioend = false) := by
      rcases h2 with ⟨h3, h4⟩ | ⟨_, _, h3⟩ | ⟨_, h3⟩
      · left; simp only [quit] at hq ⊢; rw [← h3, ← h4, ← hsy]; exact hq
      · simp [quit, h3] at hq
      · exact quit_next hi (ha.wf i c hi) (hb.noErr i c hi) h3 hd hq
    rcases hcase with hqc | ⟨hp, hf⟩ | ⟨hp, hio⟩
    · have hin := old c hi (by intro hp; simp [quit, hp] at hqc)
      rcases h i c hi hqc hin with hl | hw
      · exact .inl (hloop (List.ne_nil_of_mem hin) hl)
      · exact .inr (hwin hw)
    · exact absurd (hb.drn i c hi (by simp [drained, hp, hf])) hno
    · have hin := old c hi (by rw [hp]; simp)
      obtain ⟨k, e, hk, he⟩ := hbusy hio
      have hki : k ≠ i := by
        rintro rfl
        rw [hi] at hk
        cases hk
        rw [hp] at he
        simp [emptyPc] at he
      by_cases hl : loopPc e.pc = true
      · exact .inl (hloop (List.ne_nil_of_mem hin) ⟨k, e, hk, hl⟩)
      · refine .inr ⟨as, s, k, c, e, List.prefix_append _ _, hs, hi, hp, hki, hk, ?_⟩
        revert he hl
        cases e.pc <;> simp [emptyPc, loopPc]

theorem strand_exec_aux {cap : Nat} {init : List UInt8} (bs : List Act) : ∀ (as : List Act) (s t : St), InvA s → InvB init s → Busy s →
    exec cap (newFile init) as = some s → Strand cap init as s → (∀ a ∈ bs, Clean a) → exec cap s bs = some t →
    Strand cap init (as ++ bs) t := by
  induction bs with
  | nil =>
    intro as s t _ _ _ _ h _ ht
    simp only [exec, Option.some.injEq] at ht
    subst ht
    rwa [List.append_nil]
  | cons a bs ih =>
    intro as s t ha hb hy hs h hc ht
    simp only [exec] at ht
    cases hu : act cap s a with
    | none => simp [hu] at ht
    | some u =>
      simp only [hu, Option.bind_some] at ht
      have hca := hc a (by simp)
      obtain ⟨h1, h2⟩ := inv_act ha hb hca hu
      have := ih (as ++ [a]) u t h1 h2 (busy_act hy hca hu) (by rw [exec_app hs]; simp [exec, hu])
        (strand_act ha hb h2 hy hs h hca hu) (fun b hb => hc b (by simp [hb])) ht
      rwa [List.append_assoc, List.singleton_append] at this

theorem strand_all {cap : Nat} {init : List UInt8} {as : List Act} {t : St} (hc : ∀ a ∈ as, Clean a)
    (ht : exec cap (newFile init) as = some t) : Strand cap init as t := by
  have := strand_exec_aux (cap := cap) (init := init) as [] (newFile init) t (invA_init init) (invB_init init)
    (by intro h; simp [newFile] at h) rfl (by intro i d hd; simp [newFile] at hd) hc ht
  simpa using this

end Gofer.Fastio
