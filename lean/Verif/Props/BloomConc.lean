import Verif.Proof.BloomConc

/-! # The Bloom filter used by many goroutines: C260, C261 -/
namespace Gofer.Props.BloomConc
open Gofer.BloomConc
variable {I : Type}

/-! ### C260 -/

/-- **C260**: however many goroutines call Add and Contains, and in whatever order their accesses come, the filter never has all its three
arrays, except while a call, with the mutex, is between making one and dropping another. -/
theorem C260_two_arrays (cfg : Cfg I) (as : List (Act I)) (s : St I) (h : exec cfg (new cfg) as = some s) :
    (∃ j < 3, s.bits j = none) ∨ ∃ c ∈ s.log, c.pc = .rm := by
  have hb := exec_inv (P := Basic) cfg (fun s t a hs ha => basic_act cfg hs a ha) as _ _ (basic_new cfg) h
  by_cases hn : ∃ j < 3, s.bits j = none
  · exact .inl hn
  · right
    obtain ⟨i, c, h1, h2⟩ := hb.two fun j hj e => hn ⟨j, hj, e⟩
    exact ⟨c, mem_of_get h1, h2⟩

/-- **C260**: no two calls are inside the mutex at a time. -/
theorem C260_mutex (cfg : Cfg I) (as : List (Act I)) (s : St I) (h : exec cfg (new cfg) as = some s) (i j : Nat) (c d : Call I)
    (hc : s.log[i]? = some c) (hd : s.log[j]? = some d) (h1 : c.pc = .mk ∨ c.pc = .rm ∨ c.pc = .unlock) (h2 : d.pc = .mk ∨ d.pc = .rm ∨ d.pc = .unlock) :
    i = j :=
  (exec_inv (P := Basic) cfg (fun s t a hs ha => basic_act cfg hs a ha) as _ _ (basic_new cfg) h).one i j c d hc hd h1 h2

/-- **C260**: there is no deadlock: a call that has not returned can go on, or another one, which has the mutex, can. -/
theorem C260_progress (cfg : Cfg I) (as : List (Act I)) (s : St I) (h : exec cfg (new cfg) as = some s) (i : Nat) (c : Call I)
    (hc : s.log[i]? = some c) (hr : c.pc ≠ .ret) :
    (∃ t, act cfg s (.step i) = some t) ∨ ∃ (j : Nat) (d : Call I) (t : St I), s.log[j]? = some d ∧ (d.pc = .mk ∨ d.pc = .rm ∨ d.pc = .unlock) ∧ act cfg s (.step j) = some t := by
  have hb := exec_inv (P := Basic) cfg (fun s t a hs ha => basic_act cfg hs a ha) as _ _ (basic_new cfg) h
  have go : ∀ (j : Nat) (d : Call I), s.log[j]? = some d → ¬ (d.pc = .ret ∨ (d.pc = .lock ∧ s.mu = true)) → ∃ t, act cfg s (.step j) = some t := by
    intro j d hd hn
    simp only [act, hd, Option.bind_some]
    cases hs : step cfg s j d with
    | none => exact absurd (step_blocked cfg hs) hn
    | some t => exact ⟨t, rfl⟩
  by_cases hl : c.pc = .lock ∧ s.mu = true
  · right
    obtain ⟨j, d, h1, h2⟩ := hb.held hl.2
    obtain ⟨t, ht⟩ := go j d h1 (by rcases h2 with e | e | e <;> simp [e])
    exact ⟨j, d, t, h1, h2, ht⟩
  · exact .inl (go i c hc (by rintro (e | e); exacts [hr e, hl e]))

/-- The steps of call `i` in a run. -/
def own (i : Nat) (as : List (Act I)) : Nat := as.countP fun a => match a with | .step j => j == i | _ => false

/-- **C260**: a call takes at most 11 steps of its own for each hash function, and 12: nothing that others do makes it try again. -/
theorem C260_steps (cfg : Cfg I) (as : List (Act I)) (s : St I) (h : exec cfg (new cfg) as = some s) (i : Nat) : own i as ≤ 11 * cfg.k + 12 := by
  have key : ∀ (as : List (Act I)) (s t : St I), (∀ c ∈ s.log, Round cfg c) → exec cfg s as = some t →
      own i as ≤ (match s.log[i]? with | none => 11 * cfg.k + 12 | some c => left cfg c) := by
    intro as
    induction as with
    | nil => intro s t _ _; exact Nat.zero_le _
    | cons a as ih =>
      intro s t hr h
      simp only [exec] at h
      cases ha : act cfg s a with
      | none => rw [ha] at h; cases h
      | some u =>
        rw [ha] at h
        have app : ∀ c : Call I, Round cfg c → left cfg c ≤ 11 * cfg.k + 12 → u.log = s.log ++ [c] → own i as ≤ (match s.log[i]? with | none => 11 * cfg.k + 12 | some c => left cfg c) := by
          intro c h1 h2 h3
          have hi := ih u t (by
            rw [h3]
            intro d hd
            rcases List.mem_append.1 hd with hd | hd
            · exact hr d hd
            · rw [List.mem_singleton.1 hd]; exact h1) h
          rw [h3] at hi
          cases hs : s.log[i]? with
          | some d => rw [app_get hs] at hi; exact hi
          | none =>
            cases hs2 : (s.log ++ [c])[i]? with
            | none => rw [hs2] at hi; exact hi
            | some d =>
              rw [hs2] at hi
              rcases get_app hs2 with ⟨_, rfl⟩ | e
              · exact Nat.le_trans hi h2
              · rw [hs] at e; cases e
        cases a with
        | add x =>
          cases ha
          exact app _ (.inl rfl) (by simp [left, Pc.left]) rfl
        | contains x =>
          cases ha
          exact app _ (.inr (.inl rfl)) (by simp [left, Pc.left]) rfl
        | step j =>
          simp only [act] at ha
          cases hj : s.log[j]? with
          | none => rw [hj] at ha; cases ha
          | some c =>
            rw [hj] at ha
            simp only [Option.bind_some] at ha
            obtain ⟨c', h1, h2, h3, _⟩ := step_left cfg (hr c (mem_of_get hj)) ha
            have hi := ih u t (by
              rw [h1]
              intro d hd
              rcases List.mem_or_eq_of_mem_set hd with hd | rfl
              · exact hr d hd
              · exact h3) h
            rw [h1] at hi
            by_cases e : j = i
            · subst e
              rw [set_self hj] at hi
              simp only at hi
              rw [hj]
              simp only [own, List.countP_cons, beq_self_eq_true, if_true] at hi ⊢
              omega
            · rw [set_other (fun h => e h.symm)] at hi
              simp only [own, List.countP_cons, beq_iff_eq, e, if_false] at hi ⊢
              exact hi
  have := key as (new cfg) s (by simp [new]) h
  simpa [new] using this

/-! ### C261 -/

/-- A property of all states of a run. -/
def Along (cfg : Cfg I) (P : St I → Prop) : St I → List (Act I) → Prop
  | s, [] => P s
  | s, a :: as => P s ∧ ∀ t, act cfg s a = some t → Along cfg P t as

/-- At most one Add is running. -/
def OneWriter (s : St I) : Prop := (s.log.filter fun c => c.add && c.pc != .ret).length ≤ 1

/-- Sizes that are not zero, positions within the arrays. -/
def Sane (cfg : Cfg I) : Prop := 0 < cfg.k ∧ 0 < cfg.W ∧ 0 < cfg.E ∧ ∀ i x, cfg.pos i x < 64 * cfg.W

/-- The situation: the Add `d` has returned, then a Contains of its item begins; at its end at most `E` further Adds have begun. `c` is the Contains at
its end. -/
structure Case (cfg : Cfg I) (as bs : List (Act I)) (d c : Call I) : Prop where
  run : ∃ (s t : St I) (j : Nat), exec cfg (new cfg) as = some s ∧ s.log[j]? = some d ∧ exec cfg s (.contains d.item :: bs) = some t ∧
    t.log[s.log.length]? = some c ∧ t.count ≤ d.num + cfg.E
  add : d.add = true
  returned : d.pc = .ret
  ended : c.pc = .ret

/-- **C261**, the claim: an item whose Add has returned is found by every Contains that begins later, until more than `E` further Adds have begun,
whatever other calls of Contains do, and if no two Adds run at the same time (otherwise bits can be lost: C32). -/
def C261_claim : Prop := ∀ (cfg : Cfg Nat) (as bs : List (Act Nat)) (d c : Call Nat), Sane cfg → Case cfg as bs d c →
  Along cfg OneWriter (new cfg) (as ++ .contains d.item :: bs) → c.res = true

/-- One hash function, one word, `E = 1`. -/
def tiny : Cfg Nat := ⟨1, 1, 1, fun _ x => x % 64⟩
/-- A Contains reads the count and is held up; meanwhile two Adds; then it goes on: it finds the first array dropped, makes it anew, and drops the
array of the first Add. -/
def slow : List (Act Nat) := [.contains 5, .step 0] ++ (.add 1 :: List.replicate 11 (.step 1)) ++ (.add 2 :: List.replicate 11 (.step 2)) ++ List.replicate 5 (.step 0)
def look : List (Act Nat) := List.replicate 5 (.step 3)

def checkAlong (cfg : Cfg I) (P : St I → Bool) : St I → List (Act I) → Bool
  | s, [] => P s
  | s, a :: as => P s && match act cfg s a with | some t => checkAlong cfg P t as | none => true

theorem along_of_check (cfg : Cfg I) (P : St I → Prop) (p : St I → Bool) (hp : ∀ s, p s = true → P s) :
    ∀ (as : List (Act I)) (s : St I), checkAlong cfg p s as = true → Along cfg P s as := by
  intro as
  induction as with
  | nil => intro s h; exact hp s h
  | cons a as ih =>
    intro s h
    simp only [checkAlong, Bool.and_eq_true] at h
    refine ⟨hp s h.1, fun t ht => ih t ?_⟩
    have := h.2
    rw [ht] at this
    exact this

/-- **C261 is false**: a Contains that is held up destroys what has been added meanwhile. -/
theorem C261_claim_false : ¬ C261_claim := by
  intro h
  have e1 : (exec tiny (new tiny) slow).isSome = true := by decide +kernel
  obtain ⟨s, hs⟩ := Option.isSome_iff_exists.1 e1
  have e2 : ((exec tiny (new tiny) slow).bind fun s => exec tiny s (.contains 1 :: look)).isSome = true := by decide +kernel
  rw [hs, Option.bind_some] at e2
  obtain ⟨t, ht⟩ := Option.isSome_iff_exists.1 e2
  have e3 : ((exec tiny (new tiny) slow).bind fun s => (s.log[1]?).map fun d => (d.add, d.item, d.pc, d.num)) = some (true, 1, .ret, 1) := by decide +kernel
  rw [hs, Option.bind_some] at e3
  have e4 : ((exec tiny (new tiny) slow).bind fun s => (exec tiny s (.contains 1 :: look)).bind fun t => (t.log[s.log.length]?).map fun c => (c.pc, c.res, t.count)) =
      some (.ret, false, 2) := by decide +kernel
  rw [hs, Option.bind_some, ht, Option.bind_some] at e4
  cases hd : s.log[1]? with
  | none => rw [hd] at e3; cases e3
  | some d =>
    cases hc : t.log[s.log.length]? with
    | none => rw [hc] at e4; cases e4
    | some c =>
      rw [hd] at e3
      rw [hc] at e4
      simp only [Option.map_some, Option.some.injEq, Prod.mk.injEq] at e3 e4
      obtain ⟨d1, d2, d3, d4⟩ := e3
      obtain ⟨c1, c2, c3⟩ := e4
      have := h tiny slow look d c ⟨by decide, by decide, by decide, fun _ x => Nat.mod_lt x (by decide)⟩
        ⟨⟨s, t, 1, hs, hd, by rw [d2]; exact ht, hc, by rw [c3, d4]; decide⟩, d1, d3, c1⟩
        (by
          rw [d2]
          exact along_of_check tiny OneWriter (fun s => decide ((s.log.filter fun c => c.add && c.pc != .ret).length ≤ 1)) (fun s h => show (s.log.filter fun c => c.add && c.pc != .ret).length ≤ 1 from of_decide_eq_true h) _ _
            (by decide +kernel))
      rw [c2] at this
      cases this

theorem oneAdd_of {s : St I} (h : OneWriter s) : OneAdd s := by
  have key : ∀ (l : List (Call I)) (i j : Nat) (c d : Call I), i < j → l[i]? = some c → l[j]? = some d → (c.add && c.pc != .ret) = true →
      (d.add && d.pc != .ret) = true → 2 ≤ (l.filter fun c => c.add && c.pc != .ret).length := by
    intro l
    induction l with
    | nil => intro i j c d _ hc; simp at hc
    | cons e l ih =>
      intro i j c d hij hc hd h1 h2
      cases j with
      | zero => omega
      | succ j =>
        rw [List.getElem?_cons_succ] at hd
        cases i with
        | zero =>
          rw [List.getElem?_cons_zero] at hc
          cases hc
          rw [List.filter_cons, if_pos h1, List.length_cons]
          have : d ∈ l.filter fun c => c.add && c.pc != .ret := List.mem_filter.2 ⟨mem_of_get hd, h2⟩
          have := List.length_pos_of_mem this
          omega
        | succ i =>
          rw [List.getElem?_cons_succ] at hc
          have := ih i j c d (by omega) hc hd h1 h2
          rw [List.filter_cons]
          split
          · rw [List.length_cons]; omega
          · exact this
  intro i j c d hc hd h1 h2 h3 h4
  have b1 : (c.add && c.pc != .ret) = true := by simp [h1, h3]
  have b2 : (d.add && d.pc != .ret) = true := by simp [h2, h4]
  unfold OneWriter at h
  rcases Nat.lt_trichotomy i j with hl | hl | hl
  · have := key s.log i j c d hl hc hd b1 b2
    omega
  · exact hl
  · have := key s.log j i d c hl hd hc b2 b1
    omega

/-- While a Contains runs, fewer than `E` Adds begin. -/
def NoneSlow (E : Nat) (s : St I) : Prop := ∀ c ∈ s.log, c.add = false → c.pc ≠ .ret → s.count < c.num + E

/-- **C261, the part that holds**: if no two Adds run at the same time and no Contains lasts while `E` Adds begin, then every item whose Add has
returned is found by every Contains that begins later, until more than `E` further Adds have begun, over any number of generations. Missing: slow
Contains (false), Adds at the same time (false: C32). -/
theorem C261_recent_partial (cfg : Cfg I) (as bs : List (Act I)) (d c : Call I) (hok : Sane cfg) (hcase : Case cfg as bs d c)
    (hal : Along cfg (fun s => OneWriter s ∧ NoneSlow cfg.E s) (new cfg) (as ++ .contains d.item :: bs)) : c.res = true := by
  obtain ⟨hk, hW, hE, hpos⟩ := hok
  obtain ⟨⟨s, t, j, h1, h2, h3, h4, h5⟩, hda, hdr, hcr⟩ := hcase
  -- up to the start of the Contains
  have first : ∀ (as : List (Act I)) (u : St I) (G : Nat) (rest : List (Act I)), Inv cfg u G → Along cfg (fun s => OneWriter s ∧ NoneSlow cfg.E s) u (as ++ rest) →
      exec cfg u as = some s → ∃ G', Inv cfg s G' ∧ Along cfg (fun s => OneWriter s ∧ NoneSlow cfg.E s) s rest := by
    intro as
    induction as with
    | nil => intro u G rest hu ha he; cases he; exact ⟨G, hu, ha⟩
    | cons a as ih =>
      intro u G rest hu ha he
      simp only [exec] at he
      cases hv : act cfg u a with
      | none => rw [hv] at he; cases he
      | some v =>
        rw [hv] at he
        obtain ⟨G', hG'⟩ := inv_act hk hW hE hpos hu (oneAdd_of ha.1.1) ha.1.2 a hv
        exact ih v G' rest hG' (ha.2 v hv) he
  obtain ⟨G, hG, hal⟩ := first as (new cfg) 0 _ (inv_new hE) hal h1
  -- the start
  simp only [exec] at h3
  cases hv : act cfg s (.contains d.item) with
  | none => rw [hv] at h3; cases h3
  | some v =>
    rw [hv] at h3
    obtain ⟨G', hG'⟩ := inv_act hk hW hE hpos hG (oneAdd_of hal.1.1) hal.1.2 _ hv
    have hal := hal.2 v hv
    have hvd : v.log[j]? = some d := by cases hv; exact app_get h2
    have hvc : ∃ c, v.log[s.log.length]? = some c ∧ Seen cfg d v.heap c := by
      cases hv
      refine ⟨_, List.getElem?_concat_length, rfl, rfl, (hG.calls j d h2).numle, by simp [Loaded], by simp, by simp, by simp, by simp⟩
    -- the rest
    have second : ∀ (bs : List (Act I)) (u : St I) (G : Nat), Inv cfg u G → Along cfg (fun s => OneWriter s ∧ NoneSlow cfg.E s) u bs → exec cfg u bs = some t →
        u.log[j]? = some d → (∃ c, u.log[s.log.length]? = some c ∧ Seen cfg d u.heap c) → ∃ c, t.log[s.log.length]? = some c ∧ Seen cfg d t.heap c := by
      intro bs
      induction bs with
      | nil => intro u G _ _ he _ hc; cases he; exact hc
      | cons a bs ih =>
        intro u G hu ha he hud ⟨c, hc, hs⟩
        have hcount := exec_count _ _ _ he
        simp only [exec] at he
        cases hw : act cfg u a with
        | none => rw [hw] at he; cases he
        | some w =>
          rw [hw] at he
          obtain ⟨G', hG'⟩ := inv_act hk hW hE hpos hu (oneAdd_of ha.1.1) ha.1.2 a hw
          obtain ⟨q1, q2⟩ := seen_act hE hW hpos hu ha.1.2 hud hda hdr (by omega) hc hs a hw
          exact ih w G' hG' (ha.2 w hw) he q1 q2
    obtain ⟨c', q1, q2⟩ := second bs v G' hG' hal h3 hvd hvc
    rw [h4] at q1
    cases q1
    exact q2.ret hcr

/-! ### Concrete cases -/

/-- Two Adds with a Contains between their steps, then a Contains of the first item: found in the former generation, with `E = 2`. -/
def quick : Cfg Nat := ⟨1, 1, 2, fun _ x => x % 64⟩
def quickRun : List (Act Nat) := (.add 1 :: List.replicate 5 (.step 0)) ++ (.contains 5 :: List.replicate 4 (.step 1)) ++ List.replicate 2 (.step 0) ++ (.add 2 :: List.replicate 11 (.step 2))
example : ((exec quick (new quick) quickRun).bind fun s => (exec quick s (.contains 1 :: List.replicate 7 (.step 3))).bind fun t =>
    (t.log[s.log.length]?).map fun c => (c.pc, c.res, t.count)) = some (.ret, true, 2) := by decide +kernel
example : checkAlong quick (fun s => decide ((s.log.filter fun c => c.add && c.pc != .ret).length ≤ 1) &&
    s.log.all fun c => c.add || c.pc == .ret || decide (s.count < c.num + 2)) (new quick) (quickRun ++ .contains 1 :: List.replicate 7 (.step 3)) = true := by decide +kernel
/-- In the slow run the array of the first Add is gone, and there are two arrays. -/
example : ((exec tiny (new tiny) slow).map fun s => (s.bits 0 |>.isSome, s.bits 1 |>.isSome, s.bits 2 |>.isSome)) = some (true, false, true) := by decide +kernel

end Gofer.Props.BloomConc
