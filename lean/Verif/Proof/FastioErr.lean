import Verif.Proof.FastioStrand

/-! # `fastio` with I/O errors: helper lemmas -/
namespace Gofer.Fastio
open Gofer.Spec.Mmap

/-- What one event does to a call. -/
structure Chg (file : List UInt8) (a : Act) (j : Nat) (c d : Call) : Prop where
  arg : d.arg = c.arg
  wf : wf c = true → wf d = true
  data : d.data = c.data ∨ c.pc = .ret
  back : c.pc = .ret → d.pc = .ret
  plc : Gofer.Fastio.wf c = true → placed d = true → placed c = true ∨ c.pc = .write ∧ (d.err = true ∨ ∃ off, Holds file off c.data)
  err : c.err = true → d.err = true
  kp : Gofer.Fastio.wf c = true → placed c = true → placed d = true
  ks : Gofer.Fastio.wf c = true → sent c = true → sent d = true
  src : d.err = true ∨ d.ioErr = true → c.err = true ∨ c.ioErr = true ∨ ∃ k, a = .fail j k

theorem Chg.refl (file : List UInt8) (a : Act) (j : Nat) (c : Call) : Chg file a j c c :=
  ⟨rfl, id, .inl rfl, id, fun _ h => .inl h, id, fun _ => id, fun _ => id, fun h => h.imp_right .inl⟩

/-- `placed` and `sent` by place. -/
def plcPc (fast : Bool) : Pc → Bool | .add _ | .unlock | .dec | .ret => fast | _ => false
def sntPc (fast : Bool) : Pc → Bool | .enter | .inc | .send => false | _ => !fast
def isRet : Pc → Bool | .ret => true | _ => false

theorem placed_eq (c : Call) : placed c = plcPc c.fast c.pc := by unfold placed plcPc; cases c.pc <;> rfl
theorem sent_eq (c : Call) : sent c = sntPc c.fast c.pc := by unfold sent sntPc; cases c.pc <;> rfl

/-- An ordinary move. -/
def nxt (fast sync : Bool) (p q : Pc) : Bool :=
  !isRet p && (!wfPc fast sync p || (wfPc fast sync q && (plcPc fast p == plcPc fast q) && (!sntPc fast p || sntPc fast q)))

theorem get_set {log : List Call} {i j : Nat} {c' d : Call} (h : (log.set i c')[j]? = some d) : (j = i ∧ d = c') ∨ log[j]? = some d := by
  rw [List.getElem?_set] at h
  split at h
  · split at h
    · cases h; exact .inl ⟨by omega, rfl⟩
    · cases h
  · exact .inr h

theorem holds_end (f d : List UInt8) : Holds (f ++ d) f.length d := by simp [Holds]

theorem chg_step {cap : Nat} {s t : St} {i : Nat} {c : Call} (hi : s.log[i]? = some c) (ht : step cap s i c = some t) {j : Nat} {d : Call}
    (hj : t.log[j]? = some d) : ∃ c0, s.log[j]? = some c0 ∧ Chg t.file (.step i) j c0 d := by
  have one : ∀ {c' : Call}, t.log = s.log.set i c' → Chg t.file (.step i) i c c' → ∃ c0, s.log[j]? = some c0 ∧ Chg t.file (.step i) j c0 d := by
    intro c' hl hc
    rw [hl] at hj
    rcases get_set hj with ⟨rfl, rfl⟩ | h
    · exact ⟨c, hi, hc⟩
    · exact ⟨d, h, .refl ..⟩
  have two : ∀ {x : Nat} {e e' c1 c' : Call}, s.log[x]? = some e → (s.log.set x e')[i]? = some c1 → t.log = (s.log.set x e').set i c' →
      Chg t.file (.step i) x e e' → e'.pc = e.pc → (∀ c0, c1.pc = c.pc → Chg t.file (.step i) i c0 c1 → Chg t.file (.step i) i c0 c') →
      ∃ c0, s.log[j]? = some c0 ∧ Chg t.file (.step i) j c0 d := by
    intro x e e' c1 c' hx h1 hl he hpc hc
    rw [hl] at hj
    rcases get_set hj with ⟨rfl, rfl⟩ | h
    · rcases get_set h1 with ⟨rfl, rfl⟩ | h1
      · have : e = c := by rw [hx] at hi; exact Option.some.inj hi
        exact ⟨e, hx, hc e (by rw [hpc, this]) he⟩
      · have : c1 = c := by rw [h1] at hi; exact Option.some.inj hi
        exact ⟨c1, h1, hc c1 (by rw [this]) (.refl ..)⟩
    · rcases get_set h with ⟨rfl, rfl⟩ | h
      · exact ⟨e, hx, he⟩
      · exact ⟨d, h, .refl ..⟩
  have plain : ∀ {pc : Pc}, t.log = s.log.set i { c with pc } → nxt c.fast c.sync c.pc pc = true →
      ∃ c0, s.log[j]? = some c0 ∧ Chg t.file (.step i) j c0 d := by
    intro pc hl hn
    simp only [nxt, Bool.and_eq_true, Bool.or_eq_true, Bool.not_eq_eq_eq_not, Bool.not_true, beq_iff_eq] at hn
    obtain ⟨h0, hn⟩ := hn
    refine one hl ⟨rfl, fun hw => ?_, .inl rfl, fun h => ?_, fun hw h => .inl ?_, id, fun hw h => ?_, fun hw h => ?_, fun h => h.imp_right .inl⟩
    · exact (hn.resolve_left (by rw [show wfPc c.fast c.sync c.pc = true from hw]; simp)).1.1
    · rw [h] at h0; cases h0
    · have := (hn.resolve_left (by rw [show wfPc c.fast c.sync c.pc = true from hw]; simp)).1.2
      rw [placed_eq] at h ⊢; rw [this]; exact h
    · have := (hn.resolve_left (by rw [show wfPc c.fast c.sync c.pc = true from hw]; simp)).1.2
      rw [placed_eq] at h ⊢; rw [← this]; exact h
    · have := (hn.resolve_left (by rw [show wfPc c.fast c.sync c.pc = true from hw]; simp)).2
      rw [sent_eq] at h ⊢; exact this.resolve_left (by rw [h]; simp)
  have gt : ∀ {s' : St} {pc : Pc}, t = goto s' i c pc → s'.log = s.log → t.log = s.log.set i { c with pc } := by
    intro s' pc h2 h1
    rw [h2]; simp only [goto, h1]
  unfold step at ht
  split at ht
  case h_1 hp =>
    simp only [Option.some.injEq, stepEnter] at ht
    split at ht
    all_goals exact one (congrArg St.log ht).symm ⟨rfl, fun _ => rfl, .inl rfl, fun h => by simp [hp] at h, fun _ h => by simp [placed] at h, id,
      fun _ h => by simp [placed, hp] at h, fun _ h => by simp [sent, hp] at h, fun h => h.imp_right .inl⟩
  case h_2 hp =>
    unfold stepLock at ht
    split at ht <;> split at ht <;> simp only [Option.some.injEq, reduceCtorEq] at ht
    all_goals exact plain (gt ht.symm rfl) (by rw [hp]; cases c.fast <;> cases c.sync <;> rfl)
  case h_3 hp =>
    simp only [Option.some.injEq] at ht
    exact plain (gt ht.symm rfl) (by rw [hp]; cases c.fast <;> cases c.sync <;> by_cases h : 0 < s.wc <;> simp [h] <;> rfl)
  case h_4 hp =>
    simp only [Option.some.injEq] at ht
    refine one (congrArg St.log ht).symm ⟨rfl, by simp [wf, wfPc, hp], .inl rfl, fun h => by simp [hp] at h, fun _ h => .inr ⟨hp, .inr ⟨s.file.length, ?_⟩⟩, id,
      fun _ h => by simp [placed, hp] at h, fun hw h => by simpa [sent, hp] using h, fun h => h.imp_right .inl⟩
    rw [← ht]; exact holds_end _ _
  case h_5 n hp =>
    simp only [Option.some.injEq] at ht
    refine one (congrArg St.log ht).symm ⟨rfl, by simp [wf, wfPc], .inl rfl, fun h => by simp [hp] at h, fun _ h => .inl ?_, id,
      fun _ h => by simpa [placed, hp] using h, fun hw h => by simpa [sent, hp] using h, fun h => h.imp_right .inl⟩
    simpa [placed, hp] using h
  case h_6 hp =>
    simp only [Option.some.injEq, stepUnlock] at ht
    split at ht
    all_goals exact plain (gt ht.symm rfl) (by rw [hp]; cases c.fast <;> cases c.sync <;> rfl)
  case h_7 hp =>
    simp only [Option.some.injEq] at ht
    exact plain (gt ht.symm rfl) (by rw [hp]; cases c.fast <;> cases c.sync <;> rfl)
  case h_8 hp =>
    split at ht <;> simp only [Option.some.injEq, reduceCtorEq] at ht
    exact plain (gt ht.symm rfl) (by rw [hp]; cases c.fast <;> cases c.sync <;> rfl)
  case h_9 hp =>
    simp only [Option.some.injEq] at ht
    exact plain (gt ht.symm rfl) (by rw [hp]; cases c.fast <;> cases c.sync <;> cases s.ioend <;> rfl)
  case h_10 hp =>
    simp only [Option.some.injEq, stepTryLock] at ht
    split at ht
    all_goals exact plain (gt ht.symm rfl) (by rw [hp]; cases c.fast <;> cases c.sync <;> rfl)
  case h_11 hp =>
    simp only [Option.some.injEq] at ht
    exact plain (gt ht.symm rfl) (by rw [hp]; cases c.fast <;> cases c.sync <;> cases s.ioend <;> rfl)
  case h_12 hp =>
    split at ht <;> simp only [Option.some.injEq, reduceCtorEq] at ht
    exact plain (gt ht.symm rfl) (by rw [hp]; cases c.fast <;> cases c.sync <;> rfl)
  case h_13 hp =>
    simp only [Option.some.injEq] at ht
    exact plain (gt ht.symm rfl) (by rw [hp]; unfold ioRet; cases c.fast <;> cases c.sync <;> by_cases h : s.wc = 0 <;> simp [h] <;> rfl)
  case h_14 hp =>
    simp only [Option.some.injEq] at ht
    exact plain (gt ht.symm rfl) (by rw [hp]; cases c.fast <;> cases c.sync <;> rfl)
  case h_15 hp =>
    unfold stepRecv at ht
    split at ht
    · cases ht
    rename_i x ch hch
    split at ht
    · cases ht
    rename_i e hx
    simp only at ht
    split at ht
    · cases ht
    rename_i c1 h1
    simp only [Option.some.injEq] at ht
    refine two hx h1 (congrArg St.log ht).symm ⟨rfl, id, .inl rfl, id, fun _ h => .inl h, id, fun _ => id, fun _ => id, fun h => h.imp_right .inl⟩ rfl ?_
    intro c0 hpc h
    rw [hp] at hpc
    refine ⟨h.arg, fun _ => rfl, h.data, fun hr => ?_, fun _ hh => by simp [placed] at hh, h.err, fun hw hh => ?_, fun hw hh => ?_, h.src⟩
    · have := h.back hr
      rw [hpc] at this; cases this
    · have := h.kp hw hh
      simp [placed, hpc] at this
    · have := h.ks hw hh
      simpa [sent, hpc] using this
  case h_16 x hp =>
    split at ht
    · cases ht
    simp only [Option.some.injEq] at ht
    exact plain (gt ht.symm rfl) (by rw [hp]; cases c.fast <;> cases c.sync <;> rfl)
  case h_17 hp =>
    simp only [Option.some.injEq] at ht
    exact plain (gt ht.symm rfl) (by rw [hp]; cases c.fast <;> cases c.sync <;> by_cases h : s.wc - 1 = 0 <;> simp only [h, if_true, if_false] <;> rfl)
  case h_18 hp =>
    simp only [Option.some.injEq] at ht
    exact plain (gt ht.symm rfl) (by rw [hp]; cases c.fast <;> cases c.sync <;> rfl)
  case h_19 hp =>
    simp only [Option.some.injEq] at ht
    exact one (congrArg St.log ht).symm ⟨rfl, fun _ => rfl, .inl rfl, fun h => by simp [hp] at h, fun _ h => by simp [placed] at h, id,
      fun _ h => by simp [placed, hp] at h, fun hw h => by simpa [sent, hp] using h, fun h => h.imp_right .inl⟩
  case h_20 hp =>
    unfold stepClose at ht
    split at ht
    · rename_i x wds hw
      split at ht
      · cases ht
      rename_i e hx
      simp only at ht
      split at ht
      · cases ht
      rename_i c1 h1
      simp only [Option.some.injEq] at ht
      refine two hx h1 (congrArg St.log ht).symm ⟨rfl, id, .inl rfl, id, fun _ h => .inl h, id, fun _ => id, fun _ => id, fun h => h.imp_right .inl⟩ rfl ?_
      intro c0 hpc h
      exact ⟨h.arg, h.wf, h.data, h.back, h.plc, h.err, h.kp, h.ks, h.src⟩
    · split at ht
      · rename_i hf
        simp only [Bool.and_eq_true, Bool.not_eq_eq_eq_not, Bool.not_true] at hf
        simp only [Option.some.injEq] at ht
        exact one (congrArg St.log ht).symm ⟨rfl, fun _ => rfl, .inl rfl, fun h => by simp [hp] at h, fun _ h => by simp [placed, hf.2] at h, fun _ => rfl,
          fun _ h => by simp [placed, hp] at h, fun hw h => by simpa [sent, hp] using h, fun _ => .inr (.inl hf.1)⟩
      · simp only [Option.some.injEq] at ht
        exact plain (gt ht.symm rfl) (by rw [hp]; unfold ioRet; cases c.fast <;> cases c.sync <;> rfl)
  case h_21 hp =>
    simp only [Option.some.injEq] at ht
    exact plain (gt ht.symm rfl) (by rw [hp]; cases c.fast <;> cases c.sync <;> rfl)
  case h_22 hp => cases ht

theorem chg_act {cap : Nat} {s t : St} {a : Act} (ht : act cap s a = some t) {j : Nat} {d : Call} (hj : t.log[j]? = some d) :
    (∃ sync bs, a = .start sync bs ∧ d = { sync, arg := bs, data := bs }) ∨ ∃ c, s.log[j]? = some c ∧ Chg t.file a j c d := by
  cases a with
  | start sync bs =>
    simp only [act, Option.some.injEq] at ht
    rw [← ht] at hj
    simp only [List.getElem?_append] at hj
    split at hj
    · exact .inr ⟨d, hj, .refl ..⟩
    · rw [List.getElem?_singleton] at hj
      split at hj
      · cases hj; exact .inl ⟨sync, bs, rfl, rfl⟩
      · cases hj
  | step i =>
    obtain ⟨c, hi, ht⟩ := Option.bind_eq_some_iff.1 ht
    exact .inr (chg_step hi ht hj)
  | timeout i =>
    obtain ⟨c, hi, ht⟩ := Option.bind_eq_some_iff.1 ht
    split at ht
    · rename_i hp
      simp only [Option.some.injEq] at ht
      rw [← ht] at hj
      rcases get_set hj with ⟨rfl, rfl⟩ | h
      · refine .inr ⟨c, hi, rfl, ?_, .inl rfl, fun h => by simp [hp] at h, fun _ h => by simp [placed] at h, id,
          fun _ h => by simp [placed, hp] at h, fun hw h => by simpa [sent, hp] using h, fun h => h.imp_right .inl⟩
        simp only [wf, wfPc, hp]
        intro h; simp at h; simp [h.1]
      · exact .inr ⟨d, h, .refl ..⟩
    · cases ht
  | spill i k =>
    obtain ⟨c, hi, ht⟩ := Option.bind_eq_some_iff.1 ht
    unfold spill at ht
    split at ht
    · rename_i x hp
      simp only [Option.some.injEq] at ht
      rw [← ht] at hj
      rcases get_set hj with ⟨rfl, rfl⟩ | h
      · exact .inr ⟨c, hi, rfl, id, .inl rfl, id, fun _ h => .inl h, id, fun _ => id, fun _ => id, fun h => h.imp_right .inl⟩
      · exact .inr ⟨d, h, .refl ..⟩
    · cases ht
  | fail i k =>
    obtain ⟨c, hi, ht⟩ := Option.bind_eq_some_iff.1 ht
    unfold fail at ht
    split at ht
    · rename_i hp
      simp only [Option.some.injEq] at ht
      rw [← ht] at hj
      rcases get_set hj with ⟨rfl, rfl⟩ | h
      · exact .inr ⟨c, hi, rfl, by simp [wf, wfPc, hp], .inl rfl, fun h => by simp [hp] at h, fun _ h => .inr ⟨hp, .inl rfl⟩, fun _ => rfl,
          fun _ h => by simp [placed, hp] at h, fun hw h => by simpa [sent, hp] using h, fun _ => .inr (.inr ⟨k, rfl⟩)⟩
      · exact .inr ⟨d, h, .refl ..⟩
    · rename_i x hp
      simp only [Option.some.injEq] at ht
      rw [← ht] at hj
      rcases get_set hj with ⟨rfl, rfl⟩ | h
      · exact .inr ⟨c, hi, rfl, fun _ => rfl, .inl rfl, fun h => by simp [hp] at h, fun _ h => by simp [placed] at h, id,
          fun _ h => by simp [placed, hp] at h, fun hw h => by simpa [sent, hp] using h, fun _ => .inr (.inr ⟨k, rfl⟩)⟩
      · exact .inr ⟨d, h, .refl ..⟩
    · rename_i hp
      simp only [Option.some.injEq] at ht
      rw [← ht] at hj
      rcases get_set hj with ⟨rfl, rfl⟩ | h
      · exact .inr ⟨c, hi, rfl, fun _ => rfl, .inl rfl, fun h => by simp [hp] at h, fun _ h => by simp [placed] at h, id,
          fun _ h => by simp [placed, hp] at h, fun hw h => by simpa [sent, hp] using h, fun _ => .inr (.inr ⟨k, rfl⟩)⟩
      · exact .inr ⟨d, h, .refl ..⟩
    · cases ht
  | reuse sync i dd =>
    obtain ⟨c, hi, ht⟩ := Option.bind_eq_some_iff.1 ht
    split at ht
    · rename_i hp
      simp only [Option.some.injEq] at ht
      rw [← ht] at hj
      rcases get_set hj with ⟨rfl, rfl⟩ | h
      · exact .inr ⟨c, hi, rfl, id, .inr hp.1, id, fun _ h => .inl h, id, fun _ => id, fun _ => id, fun h => h.imp_right .inl⟩
      · exact .inr ⟨d, h, .refl ..⟩
    · cases ht

theorem holds_more {f g d : List UInt8} {off : Nat} (h : Holds f off d) : Holds (f ++ g) off d := by
  unfold Holds at *
  have hl : d.length ≤ (f.drop off).length := by
    have := congrArg List.length h
    simp only [List.length_take] at this
    omega
  rcases Nat.lt_or_ge f.length off with hlt | hge
  · rw [List.drop_eq_nil_of_le (by omega)] at hl
    have : d = [] := List.eq_nil_of_length_eq_zero (by simpa using hl)
    simp [this]
  · rw [List.drop_append_of_le_length hge, List.take_append_of_le_length hl]; exact h

/-- What is known about every call, whatever writes fail. -/
def InvE (as : List Act) (s : St) : Prop :=
  ∀ (i : Nat) (c : Call), s.log[i]? = some c → wf c = true ∧ (c.pc ≠ .ret → c.data = c.arg) ∧
    (placed c = true → c.err = false → ∃ off, Holds s.file off c.arg) ∧ (c.err = true ∨ c.ioErr = true → ∃ k, Act.fail i k ∈ as)

theorem invE_act {cap : Nat} {as : List Act} {s t : St} {a : Act} (h : InvE as s) (ht : act cap s a = some t) : InvE (as ++ [a]) t := by
  intro i d hi
  rcases chg_act ht hi with ⟨sync, bs, rfl, rfl⟩ | ⟨c, hc, hg⟩
  · exact ⟨rfl, fun _ => rfl, fun h => by simp [placed] at h, fun h => by simp at h⟩
  · obtain ⟨h1, h2, h3, h4⟩ := h i c hc
    refine ⟨hg.wf h1, fun hr => ?_, fun hp he => ?_, fun he => ?_⟩
    · have hr' : c.pc ≠ .ret := fun hx => hr (hg.back hx)
      rw [hg.arg, hg.data.resolve_right hr', h2 hr']
    · have he' : c.err = false := by
        cases hx : c.err with
        | false => rfl
        | true => rw [hg.err hx] at he; cases he
      rw [hg.arg]
      rcases hg.plc h1 hp with hp | ⟨hw, he2 | ⟨off, ho⟩⟩
      · obtain ⟨off, ho⟩ := h3 hp he'
        obtain ⟨g, hgr⟩ := file_grows ht
        exact ⟨off, by rw [hgr]; exact holds_more ho⟩
      · rw [he] at he2; cases he2
      · rw [h2 (by rw [hw]; decide)] at ho
        exact ⟨off, ho⟩
    · rcases hg.src he with h | h | ⟨k, rfl⟩
      · obtain ⟨k, hk⟩ := h4 (.inl h); exact ⟨k, by simp [hk]⟩
      · obtain ⟨k, hk⟩ := h4 (.inr h); exact ⟨k, by simp [hk]⟩
      · exact ⟨k, by simp⟩

theorem invE_exec {cap : Nat} {pre as : List Act} {s t : St} (h : InvE pre s) (ht : exec cap s as = some t) : InvE (pre ++ as) t := by
  induction as generalizing pre s with
  | nil => simp only [exec, Option.some.injEq] at ht; subst ht; simpa using h
  | cons a as ih =>
    obtain ⟨u, hu, ht⟩ := Option.bind_eq_some_iff.1 ht
    have := ih (invE_act h hu) ht
    simpa using this

theorem act_keeps {cap : Nat} {s t : St} {a : Act} (ht : act cap s a = some t) {i : Nat} {c : Call} (hi : s.log[i]? = some c) : ∃ d, t.log[i]? = some d := by
  have hl : s.log.length ≤ t.log.length := log_grows ht
  have := (List.getElem?_eq_some_iff.1 hi).1
  exact ⟨t.log[i], List.getElem?_eq_getElem (by omega)⟩

/-- An error stays. -/
theorem err_stays {cap : Nat} {as : List Act} {s t : St} (ht : exec cap s as = some t) {i : Nat} {c d : Call} (hi : s.log[i]? = some c)
    (hd : t.log[i]? = some d) (he : c.err = true) : d.err = true := by
  induction as generalizing s c with
  | nil =>
    simp only [exec, Option.some.injEq] at ht; subst ht
    rw [hi] at hd; cases hd; exact he
  | cons a as ih =>
    obtain ⟨u, hu, ht⟩ := Option.bind_eq_some_iff.1 ht
    obtain ⟨e, hx⟩ := act_keeps hu hi
    refine ih ht hx ?_
    rcases chg_act hu hx with ⟨sync, bs, rfl, _⟩ | ⟨c', hc', hg⟩
    · simp only [act, Option.some.injEq] at hu
      rw [← hu] at hx
      simp only [List.getElem?_append_left (List.getElem?_eq_some_iff.1 hi).1] at hx
      rw [hi] at hx; cases hx; exact he
    · rw [hi] at hc'; cases hc'; exact hg.err he

end Gofer.Fastio
