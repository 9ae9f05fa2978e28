import Verif.Proof.GoPoolWorkers

/-! # `GoPool`: runs without `Close` and `TurnOff` -/
namespace Gofer.GoPool
open Gofer.Count

/-- The dispatcher has taken a task from the queue and not yet decremented `tnum`. -/
def mid : DPc → Bool
  | .chk _ | .cnt _ | .newId _ | .idChk _ | .incId _ | .wait _ | .add _ _ | .once _ | .dec => true
  | _ => false
def isInc : Pc → Bool
  | .inc => true
  | _ => false
def atInc (c : Call) : Bool := isInc c.pc
def goPc : Pc → Bool
  | .check | .send | .inc | .tryl | .ret => true
  | _ => false

section
variable {cfg : Cfg} {s t : St}

/-- `tnum` counts what is in the queue, up to calls of `Go` before their increment and the task in the dispatcher's hand. -/
def Tn (s : St) : Prop := s.tnum + (s.log.countP atInc : Int) = (s.q.length : Int) + (mid s.disp).toNat

theorem tn_tr (hko : ∀ (i : Nat) (c : Call), s.log[i]? = some c → kindOk c = true) (tn : Tn s) (hw : ∀ f, s.disp = .wait f → s.poolClosed = false)
    (ht : Tr cfg s t) : Tn t := by
  unfold Tn at *
  have cnt : ∀ {i : Nat} {c : Call} (pc : Pc), s.log[i]? = some c →
      (s.log.set i { c with pc := pc }).countP atInc + (isInc c.pc).toNat = s.log.countP atInc + (isInc pc).toNat :=
    fun pc hi => cnt_set (p := atInc) hi
  have same : ∀ {i : Nat} {c : Call} {pc : Pc}, s.log[i]? = some c → isInc c.pc = isInc pc → (s.log.set i { c with pc := pc }).countP atInc = s.log.countP atInc := by
    intro i c pc hi he
    have := cnt pc hi
    rw [he] at this
    omega
  cases ht
  case direct i c hi hp hc => simp only [St.goto]; rw [same hi (by rw [hp]; rfl)]; exact tn
  case check i c hi hp hc => simp only [St.goto]; rw [same hi (by rw [hp]; rfl)]; exact tn
  case sendP i c hi hp hc => simp only [St.goto]; rw [same hi (by rw [hp]; rfl)]; exact tn
  case send i c hi hp hc hl =>
    have := cnt .inc hi
    rw [hp] at this
    simp only [isInc, Bool.toNat_true, Bool.toNat_false] at this
    simp only [St.goto, List.length_append, List.length_singleton]
    omega
  case inc i c hi hp =>
    have := cnt .tryl hi
    rw [hp] at this
    simp only [isInc, Bool.toNat_true, Bool.toNat_false] at this
    simp only [St.goto]; omega
  case try1 i c hi hp hd => simp only [St.goto]; rw [same hi (by rw [hp]; rfl)]; rw [hd] at tn; exact tn
  case try2 i c hi hp hd => simp only [St.goto]; rw [same hi (by rw [hp]; rfl)]; exact tn
  case casF i c hi hp hc => simp only [St.goto]; rw [same hi (by rw [hp]; rfl)]; exact tn
  case cas i c hi hp hc => simp only [St.goto]; rw [same hi (by rw [hp]; rfl)]; exact tn
  case setClose i c hi hp => simp only [St.goto]; rw [same hi (by rw [hp]; rfl)]; exact tn
  case cancel i c hi hp => simp only [St.goto]; rw [same hi (by rw [hp]; rfl)]; exact tn
  case closePool i c hi hp => simp only [St.goto]; rw [same hi (by rw [hp]; rfl)]; exact tn
  case tchk i c pc hi hp hc => simp only [St.goto]; rw [same hi (by rw [hp]; rcases hc with rfl | ⟨rfl, _⟩ <;> rfl)]; exact tn
  case tset i c b hi hp => simp only [St.goto]; rw [same hi (by rw [hp]; rfl)]; exact tn
  case range f q hd hq =>
    rw [hd, hq] at tn
    simp only [mid, List.length_cons, Bool.toNat_true, Bool.toNat_false] at tn ⊢
    omega
  case rangeEnd hd hq hc => rw [hd] at tn; exact tn
  case chkC f hd hc => rw [hd] at tn; exact tn
  case waitNil f hd hp hc => rw [hw f hd] at hc; cases hc
  case dec1 hd _ => rw [hd] at tn; simp only [mid, Bool.toNat_true, Bool.toNat_false] at tn ⊢; omega
  case dec2 hd _ => rw [hd] at tn; simp only [mid, Bool.toNat_true, Bool.toNat_false] at tn ⊢; omega
  case sel => exact tn
  case put1 => exact tn
  case put2 => exact tn
  case put2D => exact tn
  case put3C => exact tn
  case put3X => exact tn
  case put3 => exact tn
  case quit => exact tn
  case finish => exact tn
  case free => exact tn
  case freeEnd => exact tn
  case freeX => exact tn
  case timer => exact tn
  case chk f hd _ => rw [hd] at tn; exact tn
  case cnt1 f hd _ _ => rw [hd] at tn; exact tn
  case cnt2 f hd _ => rw [hd] at tn; exact tn
  case newId f hd => rw [hd] at tn; exact tn
  case idChk1 f hd _ => rw [hd] at tn; exact tn
  case idChk2 f hd _ => rw [hd] at tn; exact tn
  case incId1 f hd _ => rw [hd] at tn; exact tn
  case incId2 f hd _ => rw [hd] at tn; exact tn
  case wait f w p hd _ => rw [hd] at tn; exact tn
  case add f w k hd _ _ => rw [hd] at tn; exact tn
  case once1 w k hd _ _ => rw [hd] at tn; exact tn
  case once2 w k hd _ _ => rw [hd] at tn; exact tn
  case last1 hd _ => rw [hd] at tn; exact tn
  case last2 hd _ => rw [hd] at tn; exact tn
  case unlock hd => rw [hd] at tn; exact tn


/-- What holds as long as `Close` and `TurnOff` are not called. -/
structure NC (cfg : Cfg) (s : St) : Prop where
  close : s.close = false
  flag : s.flag = false
  can : s.cancelled = false
  pc : s.poolClosed = false
  qc : s.qClosed = false
  ti : s.timer = false
  fr : s.free = []
  cr : s.crash = false
  go : ∀ (i : Nat) (c : Call), s.log[i]? = some c → c.kind = .go ∧ goPc c.pc = true
  tn : Tn s
  wk : W cfg.minlimit cfg.maxlimit s.workers s.pool s.id s.count s.disp
  oc : ∀ x, occ s x = accN s.log x

theorem nc_new (cfg : Cfg) : NC cfg new := by
  refine ⟨rfl, rfl, rfl, rfl, rfl, rfl, rfl, rfl, ?_, ?_, ?_, ?_⟩
  · intro i c h; simp [new] at h
  · simp [Tn, new, mid]
  · constructor <;> simp [new, dcharge, isNewId]
    intros; omega
  · intro x; simp [occ, new, holds, accN]

theorem go_ko {c : Call} (h : c.kind = .go ∧ goPc c.pc = true) : kindOk c = true := by
  obtain ⟨h1, h2⟩ := h
  cases hp : c.pc <;> simp_all [kindOk, goPc]

theorem NC.go_tr (h : NC cfg s) (ht : Tr cfg s t) : ∀ (i : Nat) (c : Call), t.log[i]? = some c → c.kind = .go ∧ goPc c.pc = true := by
  obtain ⟨h1, h2, h3, h4, h5, h6, h7, h8, go, tn, wk, oc⟩ := h
  have key : ∀ {j : Nat} {c' : Call} {pc : Pc}, s.log[j]? = some c' → goPc pc = true →
      ∀ (i : Nat) (c : Call), (s.log.set j { c' with pc := pc })[i]? = some c → c.kind = .go ∧ goPc c.pc = true := by
    intro j c' pc hj hk i c hi
    replace hi := get_set_cases hi
    rcases hi with ⟨rfl, rfl⟩ | ⟨_, hi⟩
    · exact ⟨(go _ _ hj).1, hk⟩
    · exact go i c hi
  cases ht
  case direct i c hi hp hc => exact key hi rfl
  case check i c hi hp hc => exact key hi rfl
  case sendP i c hi hp hc => rw [h5] at hc; cases hc
  case send i c hi hp hc hl => exact key hi rfl
  case inc i c hi hp => exact key hi rfl
  case try1 i c hi hp hd => exact key hi rfl
  case try2 i c hi hp hd => exact key hi rfl
  case casF i c hi hp hc => have := (go i c hi).2; rw [hp] at this; cases this
  case cas i c hi hp hc => have := (go i c hi).2; rw [hp] at this; cases this
  case setClose i c hi hp => have := (go i c hi).2; rw [hp] at this; cases this
  case cancel i c hi hp => have := (go i c hi).2; rw [hp] at this; cases this
  case closePool i c hi hp => have := (go i c hi).2; rw [hp] at this; cases this
  case tchk i c pc hi hp hc => have := (go i c hi).2; rw [hp] at this; cases this
  case tset i c b hi hp => have := (go i c hi).2; rw [hp] at this; cases this
  all_goals exact go

theorem NC.wk_tr (h : NC cfg s) (ht : Tr cfg s t) : W cfg.minlimit cfg.maxlimit t.workers t.pool t.id t.count t.disp := by
  obtain ⟨h1, h2, h3, h4, h5, h6, h7, h8, go, tn, wk, oc⟩ := h
  have mv : ∀ {d d' : DPc}, s.disp = d → plain d = true → plain d' = true → W cfg.minlimit cfg.maxlimit s.workers s.pool s.id s.count d' := by
    intro d d' hd p1 p2
    refine wk.move (.inl (hd ▸ p1)) ?_ ?_ (Nat.le_refl _) (.inl rfl) ?_ (.inl rfl) ?_ ?_
    · rintro f w rfl; cases p2
    · rintro w rfl; cases p2
    · rintro f rfl; cases p2
    · have e1 : dcharge s.disp = false := by rw [hd]; cases d <;> first | rfl | cases p1
      have e2 : dcharge d' = false := by cases d' <;> first | rfl | cases p2
      rw [e1, e2]
    · intro e; cases d' <;> first | (cases e; done) | (cases p2; done)
  have off : ∀ {w : Nat} {k : Worker}, s.workers[w]? = some k → k.pc ≠ .new → k.pc ≠ .sel → k.buf = none ∧ (∀ f, s.disp ≠ .add f w) ∧ w ∉ s.pool := by
    intro w k hk n1 n2
    refine ⟨?_, ?_, ?_⟩
    · cases hb : k.buf with
      | none => rfl
      | some f => rcases wk.bf w k f hk hb with e | e
                  · exact absurd e n1
                  · exact absurd e n2
    · intro f e
      obtain ⟨k1, g1, g2, g3⟩ := wk.ad f w e
      rw [hk] at g1; cases g1
      rcases g3 with e | ⟨e, _⟩
      · exact n1 e
      · exact n2 e
    · intro hw
      obtain ⟨k1, g1, g2, g3, _⟩ := wk.pl w hw
      rw [hk] at g1; cases g1
      exact n2 g3
  cases ht
  case direct => exact wk
  case check => exact wk
  case sendP => exact wk
  case send => exact wk
  case inc => exact wk
  case try1 i c hi hp hd => exact mv hd rfl rfl
  case try2 => exact wk
  case casF => exact wk
  case cas => exact wk
  case setClose => exact wk
  case cancel => exact wk
  case closePool => exact wk
  case tchk => exact wk
  case tset => exact wk
  case range f q hd hq => exact mv hd rfl rfl
  case rangeEnd hd hq hc => exact mv hd rfl rfl
  case chkC f hd hc => exact mv hd rfl rfl
  case chk f hd hc => exact mv hd rfl rfl
  case cnt1 f hd c1 c2 =>
    refine wk.move (.inl (by rw [hd]; rfl)) (fun _ _ e => by cases e) (fun _ e => by cases e) (Nat.le_refl _) (.inl rfl) (fun _ e => by cases e) (.inl rfl) ?_ ?_
    · rw [hd]; simp [dcharge]
    · intro _; exact ⟨c1, c2, by rw [hd]; rfl⟩
  case cnt2 f hd hc =>
    refine wk.move (.inl (by rw [hd]; rfl)) (fun _ _ e => by cases e) (fun _ e => by cases e) (Nat.le_refl _) (.inl rfl) (fun _ e => by cases e) (.inl rfl) ?_ ?_
    · rw [hd]; simp [dcharge]
    · intro e; cases e
  case newId f hd => exact wk.make (.inl hd)
  case idChk1 f hd hc =>
    refine wk.move (.inr (.inl ⟨f, hd⟩)) (fun _ _ e => by cases e) (fun _ e => by cases e) (Nat.le_refl _) (.inl rfl) (fun _ _ => hc) (.inl rfl) ?_ ?_
    · rw [hd]; simp [dcharge]
    · intro e; cases e
  case idChk2 f hd hc =>
    refine wk.move (.inr (.inl ⟨f, hd⟩)) (fun _ _ e => by cases e) (fun _ e => by cases e) (Nat.le_refl _) (.inl rfl) (fun _ e => by cases e) (.inl rfl) ?_ ?_
    · rw [hd]; simp [dcharge]
    · intro e; cases e
  case incId1 f hd hc => exact wk.make (.inr ⟨hd, hc⟩)
  case incId2 f hd hc =>
    refine wk.move (.inr (.inr ⟨f, hd⟩)) (fun _ _ e => by cases e) (fun _ e => by cases e) (Nat.le_succ _) (.inr hc) (fun _ _ => hc) (.inr (by omega)) ?_ ?_
    · rw [hd]; simp [dcharge]
    · intro e; cases e
  case wait f w p hd hp => exact wk.take hd hp
  case waitNil f hd hp hc => rw [h4] at hc; cases hc
  case add f w k hd hk hb => exact wk.give hd hk
  case once1 w k hd hk hp => exact wk.begin hd hk hp
  case once2 w k hd hk hp => exact wk.skip hd hk hp
  case dec1 hd _ => exact mv hd rfl rfl
  case dec2 hd _ => exact mv hd rfl rfl
  case last1 hd _ => exact mv hd rfl rfl
  case last2 hd _ => exact mv hd rfl rfl
  case unlock hd => exact mv hd rfl rfl
  case sel w f k hk hp hb =>
    refine wk.work hk rfl (by rw [hp]; simp) (by simp) ?_ rfl (fun e => by cases e) (fun e => by cases e) (fun b e => by cases e) ?_ (.inl ⟨rfl, by simp⟩) true true ?_ ?_ ?_ ?_
    · intro g e
      obtain ⟨k1, g1, g2, _⟩ := wk.ad g w e
      rw [hk] at g1; cases g1
      rw [hb] at g2; cases g2
    · intro hw
      obtain ⟨k1, g1, g2, g3, g4⟩ := wk.pl w hw
      rw [hk] at g1; cases g1
      rw [hb] at g4; cases g4
    · simp [charged, hb]
    · simp [charged, hb]
    · simp [St.wset]
    · simp [extra, hp]
  case put1 w k d hk hp =>
    obtain ⟨o1, o2, o3⟩ := off hk (by rw [hp]; simp) (by rw [hp]; simp)
    refine wk.work hk rfl (by rw [hp]; simp) (by simp) o2 o1 (fun e => by cases e) (fun e => by cases e) (fun b e => by cases e) o3 (.inl ⟨rfl, by simp⟩) true false ?_ ?_ ?_ ?_
    · simp [charged, hp, o1]
    · simp [charged, o1]
    · simp [St.wset]
    · simp [extra]
  case put2 w k d hk hp hid hf =>
    obtain ⟨o1, o2, o3⟩ := off hk (by rw [hp]; simp) (by rw [hp]; simp)
    refine wk.work hk rfl (by rw [hp]; simp) (by simp) o2 o1 (fun e => by cases e) (fun e => by cases e) (fun b e => hid) o3 (.inl ⟨rfl, by simp⟩) false false ?_ ?_ ?_ ?_
    · simp [charged, hp, o1]
    · simp [charged, o1]
    · simp [St.wset]
    · simp [extra]
  case put2D w k d hk hp hid =>
    obtain ⟨o1, o2, o3⟩ := off hk (by rw [hp]; simp) (by rw [hp]; simp)
    have hid : cfg.minlimit < k.id := by
      rcases hid with g | g
      · exact g
      · rw [h2] at g; cases g
    refine wk.work hk rfl (by rw [hp]; simp) (by simp) o2 o1 (fun e => by cases e) (fun e => hid) (fun b e => by cases e) o3 (.inl ⟨rfl, by simp⟩) false false ?_ ?_ ?_ ?_
    · simp [charged, hp, o1]
    · simp [charged, o1]
    · simp [St.wset]
    · simp [extra]
  case put3C w k hk hp hc => rw [h4] at hc; cases hc
  case put3X w k hk hp hc => rw [h4] at hc; cases hc
  case put3 w k d hk hp hc hl =>
    obtain ⟨o1, o2, o3⟩ := off hk (by rw [hp]; simp) (by rw [hp]; simp)
    have hid := wk.p3 w k d hk hp
    refine wk.work hk rfl (by rw [hp]; simp) (by simp) o2 o1 (fun e => hid) (fun e => by cases e) (fun b e => hid) o3 (.inr ⟨rfl, rfl⟩) false false ?_ ?_ ?_ ?_
    · simp [charged, hp, o1]
    · simp [charged, o1]
    · simp [St.wset]
    · simp [extra]; omega
  case quit w k hk hp hc => rw [h3] at hc; cases hc
  case finish w f k d hk hp =>
    obtain ⟨o1, o2, o3⟩ := off hk (by rw [hp]; simp) (by rw [hp]; simp)
    refine wk.work hk rfl (by rw [hp]; simp) (by simp) o2 o1 (fun e => by cases e) (fun e => by cases e) (fun b e => by cases e) o3 (.inl ⟨rfl, by simp⟩) true true ?_ ?_ ?_ ?_
    · simp [charged, hp, o1]
    · simp [charged, o1]
    · simp [St.wset]
    · simp [extra, hp]
  case free => exact wk
  case freeEnd => exact wk
  case freeX => exact wk
  case timer => exact wk

theorem NC.tr (h : NC cfg s) (ht : Tr cfg s t) : NC cfg t := by
  have go' := h.go_tr ht
  have tn' := tn_tr (fun i c hi => go_ko (h.go i c hi)) h.tn (fun _ _ => h.pc) ht
  have wk' := h.wk_tr ht
  have oc' : ∀ x, occ t x = accN t.log x := fun x => by
    have := (occ_tr (fun i c hi => go_ko (h.go i c hi)) ht x).2 (fun _ _ => h.pc) (fun _ _ _ _ => h.can)
    have := h.oc x
    omega
  have np : ∀ {i : Nat} {c : Call} {pc : Pc}, s.log[i]? = some c → c.pc = pc → goPc pc = true := fun hi hp => by
    have := (h.go _ _ hi).2; rw [hp] at this; exact this
  obtain ⟨h1, h2, h3, h4, h5, h6, h7, h8, go, tn, wk, oc⟩ := h
  cases ht
  case direct i c hi hp hc => rw [h1] at hc; cases hc
  case cas i c hi hp hc => cases np hi hp
  case setClose i c hi hp => cases np hi hp
  case cancel i c hi hp => cases np hi hp
  case closePool i c hi hp => cases np hi hp
  case tset i c b hi hp => cases np hi hp
  case chkC f hd hc => rw [h1] at hc; cases hc
  case put3X w k hk hp hc => rw [h4] at hc; cases hc
  case freeX j g hg hp => rw [h7] at hg; cases hg
  case free j g hg hp => rw [h7] at hg; cases hg
  case freeEnd j g hg hp => rw [h7] at hg; cases hg
  case timer hc => rw [h6] at hc; cases hc
  all_goals exact ⟨h1, h2, h3, h4, h5, h6, h7, h8, go', tn', wk', oc'⟩

theorem NC.start (h : NC cfg s) : NC cfg { s with log := s.log ++ [⟨.go, .check⟩] } := by
  obtain ⟨h1, h2, h3, h4, h5, h6, h7, h8, go, tn, wk, oc⟩ := h
  refine ⟨h1, h2, h3, h4, h5, h6, h7, h8, ?_, ?_, wk, ?_⟩
  · intro i c hi
    replace hi := get_app hi
    rcases hi with ⟨hi, _⟩ | ⟨_, rfl⟩
    · exact go i c hi
    · exact ⟨rfl, rfl⟩
  · simp only [Tn, List.countP_append, List.countP_singleton, atInc, isInc, Bool.false_eq_true, if_false]
    exact tn
  · intro x
    rw [accN_app rfl]; exact oc x

theorem NC.act {a : Act} (h : NC cfg s) (hc : a ≠ .close ∧ ∀ off, a ≠ .turn off) (ht : act cfg s a = some t) : NC cfg t := by
  cases hca : isCall a
  · exact h.tr (tr_act ht hca)
  · obtain ⟨_, c, hcc, rfl⟩ := start_act ht hca
    rcases hcc with ⟨rfl, rfl⟩ | ⟨rfl, rfl⟩ | ⟨off, rfl, rfl⟩
    · exact h.start
    · exact absurd rfl hc.1
    · exact absurd rfl (hc.2 off)

theorem NC.exec {as : List Act} (h : NC cfg s) (hc : NoClose as) (ht : exec cfg s as = some t) : NC cfg t := by
  induction as generalizing s with
  | nil => simp only [GoPool.exec, Option.some.injEq] at ht; subst ht; exact h
  | cons a as ih =>
    simp only [GoPool.exec] at ht
    cases ha : GoPool.act cfg s a with
    | none => simp [ha] at ht
    | some u =>
      simp only [ha, Option.bind_some] at ht
      exact ih (h.act (hc a (by simp)) ha) (fun b hb => hc b (by simp [hb])) ht

/-- A task in the queue, and the dispatcher gone or leaving: some `Go` has yet to try the lock. -/
def Awake (s : St) : Prop := (s.disp = .idle ∨ s.disp = .unlock) → s.q ≠ [] → ∃ (i : Nat) (c : Call), s.log[i]? = some c ∧ (c.pc = .inc ∨ c.pc = .tryl)

theorem awake_tr (tn : Tn s) (hwt : ∀ f, s.disp = .wait f → s.poolClosed = false) (hw : Awake s) (hm : ∀ (i : Nat) (c : Call), s.log[i]? = some c → c.pc = .tryl → s.disp = .unlock → t = s.goto i c .ret → False)
    (ht : Tr cfg s t) : Awake t := by
  unfold Tn at tn
  have upd : ∀ {i : Nat} {c : Call} {pc : Pc}, s.log[i]? = some c → (c.pc = .inc ∨ c.pc = .tryl → pc = .inc ∨ pc = .tryl) →
      (∃ (i : Nat) (c : Call), s.log[i]? = some c ∧ (c.pc = .inc ∨ c.pc = .tryl)) →
      ∃ (j : Nat) (e : Call), (s.log.set i { c with pc := pc })[j]? = some e ∧ (e.pc = .inc ∨ e.pc = .tryl) := by
    rintro i c pc hi hp ⟨j, e, hj, he⟩
    by_cases hij : j = i
    · subst hij; rw [hi] at hj; cases hj
      exact ⟨j, _, get_set_self hi, hp he⟩
    · exact ⟨j, e, by rw [get_set_ne hij]; exact hj, he⟩
  cases ht
  case direct i c hi hp hc => intro hd hq; exact upd hi (by rw [hp]; simp) (hw hd hq)
  case check i c hi hp hc => intro hd hq; exact upd hi (by rw [hp]; simp) (hw hd hq)
  case sendP i c hi hp hc => intro hd hq; exact upd hi (by rw [hp]; simp) (hw hd hq)
  case send i c hi hp hc hl => intro hd hq; exact ⟨i, _, get_set_self hi, .inl rfl⟩
  case inc i c hi hp => intro hd hq; exact ⟨i, _, get_set_self hi, .inr rfl⟩
  case try1 i c hi hp hd => intro hd'; rcases hd' with e | e <;> cases e
  case try2 i c hi hp hd =>
    intro hd'
    rcases hd' with e | e
    · exact absurd e hd
    · exact (hm i c hi hp e rfl).elim
  case casF i c hi hp hc => intro hd hq; exact upd hi (by rw [hp]; simp) (hw hd hq)
  case cas i c hi hp hc => intro hd hq; exact upd hi (by rw [hp]; simp) (hw hd hq)
  case setClose i c hi hp => intro hd hq; exact upd hi (by rw [hp]; simp) (hw hd hq)
  case cancel i c hi hp => intro hd hq; exact upd hi (by rw [hp]; simp) (hw hd hq)
  case closePool i c hi hp => intro hd hq; exact upd hi (by rw [hp]; simp) (hw hd hq)
  case tchk i c pc hi hp hc => intro hd hq; exact upd hi (by rw [hp]; simp) (hw hd hq)
  case tset i c b hi hp => intro hd hq; exact upd hi (by rw [hp]; simp) (hw hd hq)
  case last2 hd hc =>
    intro _ hq
    rw [hd] at tn
    simp only [mid, Bool.toNat_false] at tn
    have : s.q.length ≠ 0 := by intro e; exact hq (List.length_eq_zero_iff.1 e)
    have hpos : 0 < s.log.countP atInc := by omega
    obtain ⟨c, hc, ha⟩ := List.countP_pos_iff.1 hpos
    obtain ⟨i, hi⟩ := List.mem_iff_getElem?.1 hc
    refine ⟨i, c, hi, .inl ?_⟩
    cases hp : c.pc <;> simp_all [atInc, isInc]
  case unlock hd => intro _ hq; exact hw (.inr hd) hq
  case waitNil f hd hp hc => rw [hwt f hd] at hc; cases hc
  case sel => exact hw
  case put1 => exact hw
  case put2 => exact hw
  case put2D => exact hw
  case put3C => exact hw
  case put3X => exact hw
  case put3 => exact hw
  case quit => exact hw
  case finish => exact hw
  case free => exact hw
  case freeEnd => exact hw
  case freeX => exact hw
  case timer => exact hw
  all_goals (intro hd'; rcases hd' with e | e <;> cases e)

end

theorem call_log {cfg : Cfg} {s t : St} {i : Nat} {c : Call} (h : stepCall cfg s i c = some t) : ∃ pc, t.log = s.log.set i { c with pc := pc } := by
  unfold stepCall at h
  cases hp : c.pc <;> simp only [hp] at h
  case check => split at h <;> cases h <;> exact ⟨_, rfl⟩
  case send =>
    split at h
    · cases h; exact ⟨_, rfl⟩
    · split at h <;> cases h
      exact ⟨_, rfl⟩
  case tryl =>
    cases h
    cases s.disp <;> exact ⟨_, rfl⟩
  case cas => split at h <;> cases h <;> exact ⟨_, rfl⟩
  all_goals first | (cases h; done) | (cases h; exact ⟨_, rfl⟩)

theorem act_log {cfg : Cfg} {s t : St} {a : Act} (h : act cfg s a = some t) (hc : isCall a = false) :
    t.log = s.log ∨ ∃ (j : Nat) (c : Call) (pc : Pc), a = .step j ∧ s.log[j]? = some c ∧ t.log = s.log.set j { c with pc := pc } := by
  by_cases ha : ∃ j, a = .step j
  · obtain ⟨j, rfl⟩ := ha
    unfold act at h
    split at h
    · cases h
    obtain ⟨c, hi, hs⟩ := Option.bind_eq_some_iff.1 h
    obtain ⟨pc, hpc⟩ := call_log hs
    exact .inr ⟨j, c, pc, rfl, hi, hpc⟩
  · left
    unfold act at h
    split at h
    · cases h
    cases a <;> simp only at h <;> try (cases hc; done)
    case step j => exact absurd ⟨j, rfl⟩ ha
    case disp =>
      unfold stepDisp at h
      cases hp : s.disp <;> simp only [hp] at h <;> (try (cases h; done)) <;> (try (cases h; rfl)) <;>
        (split at h <;> (try (cases h; done)) <;> (try (cases h; rfl)) <;> (split at h <;> (try (cases h; done)) <;> (cases h; rfl)))
    case work w =>
      obtain ⟨k, hk, hs⟩ := Option.bind_eq_some_iff.1 h
      unfold stepWork at hs
      cases hp : k.pc <;> simp only [hp] at hs <;> (try (cases hs; done)) <;> (try (cases hs; rfl)) <;>
        (split at hs <;> (try (cases hs; done)) <;> (try (cases hs; rfl)) <;> (split at hs <;> (try (cases hs; done)) <;> (cases hs; rfl)))
    case timer => split at h <;> cases h; rfl
    all_goals
      obtain ⟨k, hk, hs⟩ := Option.bind_eq_some_iff.1 h
      split at hs <;> cases hs
      rfl

theorem awake_act {cfg : Cfg} {s u : St} {a : Act} (tn : Tn s) (hwt : ∀ f, s.disp = .wait f → s.poolClosed = false) (hw : Awake s)
    (hm : ∀ (i : Nat) (c : Call), a = .step i → s.log[i]? = some c → c.pc = .tryl → s.disp ≠ .unlock) (ha : act cfg s a = some u) : Awake u := by
  cases hca : isCall a
  · refine awake_tr tn hwt hw (fun i c hi hp hd hu => ?_) (tr_act ha hca)
    have hch : u.log[i]? ≠ s.log[i]? := by
      rw [hu, hi]
      show (s.log.set i _)[i]? ≠ _
      rw [get_set_self hi]
      intro e
      simp only [Option.some.injEq] at e
      rw [← e] at hp; cases hp
    rcases act_log ha hca with e | ⟨j, c', pc, hj, _, e⟩
    · rw [e] at hch; exact hch rfl
    · have hij : i = j := by
        apply Classical.byContradiction
        intro hne
        apply hch
        rw [e, get_set_ne hne]
      subst hij
      exact hm i c hj hi hp hd
  · obtain ⟨_, c, hcc, rfl⟩ := start_act ha hca
    intro hd hq
    obtain ⟨i, e, hi, he⟩ := hw hd hq
    exact ⟨i, e, by show (s.log ++ [c])[i]? = _; rw [List.getElem?_append_left (List.getElem?_eq_some_iff.1 hi).1]; exact hi, he⟩

theorem awake_exec {cfg : Cfg} {s t : St} {as : List Act} (h : NC cfg s) (hw : Awake s) (hc : NoClose as) (hm : NoMiss cfg s as) (ht : exec cfg s as = some t) :
    Awake t := by
  induction as generalizing s with
  | nil => simp only [exec, Option.some.injEq] at ht; subst ht; exact hw
  | cons a as ih =>
    simp only [exec] at ht
    cases ha : act cfg s a with
    | none => simp [ha] at ht
    | some u =>
      simp only [ha, Option.bind_some] at ht
      exact ih (h.act (hc a (by simp)) ha) (awake_act h.tn (fun _ _ => h.pc) hw hm.1 ha) (fun b hb => hc b (by simp [hb])) (hm.2 u ha) ht

end Gofer.GoPool
