import Verif.Proof.FastAwaitSerial

/-! # Properties of `FastAwait` (lock/fastawait.go) -/
namespace Gofer.Props.FastAwait
open Gofer.FastAwait Gofer.Count
open Gofer.Await (Id Chan Res Kind upd)

variable {V : Type}

/-- The actions `step i`, `n` times. -/
def steps (i n : Nat) : List (Act V) := List.replicate n (.step i)

/-- A filter without false positives. -/
def plain (l : List Id) (x : Id) : Bool := l.contains x

/-- **C64**, values: in any execution, a `Wait(x)` that returned a value sent by call `p` returned the value of a
`CloseAndPut(x, v)`; the id is the same. -/
theorem C64_value (has : List Id → Id → Bool) (loops : Nat) (as : List (Act V)) (s : St V) (h : exec has loops (new V) as = some s)
    (w p : Nat) (c : Call V) (hw : s.log[w]? = some c) (hr : c.pc = .wRet (.got p)) :
    isWait c = true ∧ ∃ d v, s.log[p]? = some d ∧ d.kind = .put v ∧ d.idx = c.idx := by
  have hI := inv_exec inv_new h
  have hk := hI.ko w c hw
  refine ⟨by cases hq : c.kind <;> simp_all [kindOk, isWait], ?_⟩
  obtain ⟨d, h1, h2, h3⟩ := hI.gi w c p hw (by rw [hr]; rfl)
  cases hd : d.kind with
  | put v => exact ⟨d, v, h1, hd, h3⟩
  | wait => simp [isPut, hd] at h2
  | close => simp [isPut, hd] at h2

/-- **C64**, once: the value of one `CloseAndPut` is returned by at most one `Wait`. -/
theorem C64_once (has : List Id → Id → Bool) (loops : Nat) (as : List (Act V)) (s : St V) (h : exec has loops (new V) as = some s)
    (w w' p : Nat) (c c' : Call V) (hw : s.log[w]? = some c) (hr : c.pc = .wRet (.got p)) (hw' : s.log[w']? = some c') (hr' : c'.pc = .wRet (.got p)) :
    w = w' := by
  have hI := inv_exec inv_new h
  have hle : s.log.countP (hasGot p) ≤ 1 := by
    have h1 := hI.occ p
    have h2 : sentN s.log p ≤ 1 := by
      unfold sentN
      cases s.log[p]? with
      | none => simp
      | some d => cases hs : sent d <;> simp [hs]
    unfold Gofer.FastAwait.occ at h1
    omega
  exact cnt_one hle hw hw' (by simp [hasGot, gotOf, hr]) (by simp [hasGot, gotOf, hr'])

/-- **C64**, zero values: a `Wait(x)` returns the zero value without an error only if `Close(x)` has been called. -/
theorem C64_zero (has : List Id → Id → Bool) (loops : Nat) (as : List (Act V)) (s : St V) (h : exec has loops (new V) as = some s)
    (w : Nat) (c : Call V) (hw : s.log[w]? = some c) (hr : c.pc = .wRet .zero) :
    ∃ (j : Nat) (d : Call V), s.log[j]? = some d ∧ d.kind = .close ∧ d.idx = c.idx :=
  (inv_exec inv_new h).z2 w c hw (by rw [hr]; trivial)

/-- A waiter gets the value `7`. -/
def demo : List (Act Nat) := [.wait true false 5] ++ steps 0 1 ++ [.put 5 7] ++ steps 1 4 ++ steps 0 3
example : (exec plain 30 (new Nat) demo).map (fun s => s.log) =
    some [⟨.wait true false, 5, .wRet (.got 1)⟩, ⟨.put 7, 5, .ret false⟩] := by decide +kernel
/-- A waiter gets the zero value, after `Close`. -/
example : (exec plain 30 (new Nat) ([.wait true false 5] ++ steps 0 1 ++ [.close 5] ++ steps 1 3 ++ steps 0 3)).map (fun s => s.log) =
    some [⟨.wait true false, 5, .wRet .zero⟩, ⟨.close, 5, .ret false⟩] := by decide +kernel

/-- **C95**: a `CloseAndPut` about to send never waits for ever. Either its send goes on at once, or the channel is full; then some
other `CloseAndPut` on the same channel has sent and is about to close it, which nothing can stop, and after that the send goes on
(with a panic that is turned into an error). -/
theorem C95_no_deadlock (has : List Id → Id → Bool) (loops : Nat) (as : List (Act V)) (s : St V) (h : exec has loops (new V) as = some s)
    (p : Nat) (c : Call V) (ch : Nat) (hp : s.log[p]? = some c) (hc : c.pc = .send ch) :
    (∃ t, act has loops s (.step p) = some t) ∨
    ∃ q d t u, q ≠ p ∧ s.log[q]? = some d ∧ d.pc = .close ch false ∧ act has loops s (.step q) = some t ∧ act has loops t (.step p) = some u := by
  have hI := inv_exec inv_new h
  obtain ⟨k, g1, g2⟩ := hI.ref p c ch hp (by rw [hc]; rfl)
  cases hcl : k.closed with
  | true => exact .inl ⟨_, by simp only [act, hp, Option.bind_some, step, hc, g1, hcl, if_true]; rfl⟩
  | false =>
    cases hb : k.buf with
    | none => exact .inl ⟨_, by simp only [act, hp, Option.bind_some, step, hc, g1, hcl, hb]; rfl⟩
    | some q =>
      obtain ⟨d, d1, d2⟩ := hI.bc ch k q g1 hb hcl
      have hqp : q ≠ p := by
        rintro rfl
        rw [hp] at d1; cases d1
        rw [hc] at d2; cases d2
      have hlt := (List.getElem?_eq_some_iff.1 g1).1
      have e1 : (s.log.set q { d with pc := .ret false })[p]? = some c := by rw [get_set_ne (Ne.symm hqp)]; exact hp
      have a1 : act has loops s (.step q) = some (St.goto { s with chans := s.chans.set ch { k with closed := true } } q d (.ret false)) := by
        simp only [act, d1, Option.bind_some, step, d2, g1, hcl, Bool.false_eq_true, if_false]
      have a2 : ∃ u, act has loops (St.goto { s with chans := s.chans.set ch { k with closed := true } } q d (.ret false)) (.step p) = some u := by
        simp only [act, St.goto, e1, Option.bind_some, step, hc, List.getElem?_set_self hlt, if_true]
        exact ⟨_, rfl⟩
      obtain ⟨u, hu⟩ := a2
      exact .inr ⟨q, d, _, u, hqp, d1, d2, a1, hu⟩

/-- Every other step of a `CloseAndPut` or `Close` that has not returned, and every step of a `Wait` except its receive, goes on at
once. -/
theorem C95_others (has : List Id → Id → Bool) (loops : Nat) (as : List (Act V)) (s : St V) (h : exec has loops (new V) as = some s)
    (i : Nat) (c : Call V) (hi : s.log[i]? = some c) (h1 : ∀ ch, c.pc ≠ .send ch) (h2 : ∀ ch, c.pc ≠ .select ch)
    (h3 : ∀ e, c.pc ≠ .ret e) (h4 : ∀ r, c.pc ≠ .wRet r) : ∃ t, act has loops s (.step i) = some t := by
  have hI := inv_exec inv_new h
  simp only [act, hi, Option.bind_some, step]
  cases hp : c.pc with
  | send ch => exact absurd hp (h1 ch)
  | select ch => exact absurd hp (h2 ch)
  | ret e => exact absurd hp (h3 e)
  | wRet r => exact absurd hp (h4 r)
  | wPut ch => exact ⟨_, rfl⟩
  | wAdd r => exact ⟨_, rfl⟩
  | wDel r => exact ⟨_, rfl⟩
  | del ch => exact ⟨_, rfl⟩
  | get n => simp only; split <;> exact ⟨_, rfl⟩
  | isDel n =>
    simp only
    split
    · exact ⟨_, rfl⟩
    · cases n <;> exact ⟨_, rfl⟩
  | wClose ch =>
    obtain ⟨k, g1, g2⟩ := hI.ref i c ch hi (by rw [hp]; rfl)
    simp only [g1]; exact ⟨_, rfl⟩
  | close ch b =>
    obtain ⟨k, g1, g2⟩ := hI.ref i c ch hi (by rw [hp]; rfl)
    simp only [g1]; split <;> exact ⟨_, rfl⟩

/-- Two `CloseAndPut` calls took the same channel; the second one finds it full. -/
example : ∃ s, exec plain 30 (new Nat) ([.wait true false 5] ++ steps 0 1 ++ [.put 5 7, .put 5 8] ++ steps 1 2 ++ [.timeout 0]) = some s ∧
    s.log = [⟨.wait true false, 5, .wClose 0⟩, ⟨.put 7, 5, .send 0⟩, ⟨.put 8, 5, .get 30⟩] := by
  have e : (exec plain 30 (new Nat) ([.wait true false 5] ++ steps 0 1 ++ [.put 5 7, .put 5 8] ++ steps 1 2 ++ [.timeout 0])).map (fun s => s.log) =
    some [⟨.wait true false, 5, .wClose 0⟩, ⟨.put 7, 5, .send 0⟩, ⟨.put 8, 5, .get 30⟩] := by decide +kernel
  exact Option.map_eq_some_iff.1 e
def full : List (Act Nat) := [.wait true false 5] ++ steps 0 1 ++ [.put 5 7, .put 5 8] ++ steps 1 1 ++ steps 2 1 ++ steps 1 2 ++ steps 2 1
example : ∃ s, exec plain 30 (new Nat) full = some s ∧ s.log[2]? = some ⟨.put 8, 5, .send 0⟩ ∧ act plain 30 s (.step 2) = none := by
  have e : (exec plain 30 (new Nat) full).map (fun s => (s.log, s.chans)) =
    some ([⟨.wait true false, 5, .select 0⟩, ⟨.put 7, 5, .close 0 false⟩, ⟨.put 8, 5, .send 0⟩], [⟨5, some 1, false⟩]) := by decide +kernel
  obtain ⟨s, hs, hl⟩ := Option.map_eq_some_iff.1 e
  simp only [Prod.mk.injEq] at hl
  exact ⟨s, hs, by rw [hl.1]; rfl, by simp [act, hl.1, hl.2, step]⟩

/-- **C96**, as stated: if call `w` waits for `x` when a `CloseAndPut(x, v)` begins, and that call and all others of
`CloseAndPut(x, _)` and `Close(x)` have returned, then `w` is not left waiting with nothing to receive. -/
def C96_claim : Prop :=
  ∀ (as bs : List (Act Nat)) (s t : St Nat) (x : Id) (v w ch : Nat) (c : Call Nat),
    exec plain 30 (new Nat) as = some s → s.log[w]? = some c → c.idx = x → c.pc = .select ch →
    exec plain 30 s (.put x v :: bs) = some t → Quiet x t → ¬ Stuck t w

/-- **C96**, with the `Wait` calls for `x` one after the other. -/
def C96_claim_serial : Prop :=
  ∀ (as bs : List (Act Nat)) (s t : St Nat) (x : Id) (v w ch : Nat) (c : Call Nat),
    Serial plain 30 x (new Nat) (as ++ .put x v :: bs) →
    exec plain 30 (new Nat) as = some s → s.log[w]? = some c → c.idx = x → c.pc = .select ch →
    exec plain 30 s (.put x v :: bs) = some t → Quiet x t → ¬ Stuck t w

/-- **C96** is false: a second `Wait` for the same id replaces the channel of the first in the map, and the first waits for ever. -/
theorem C96_claim_false : ¬ C96_claim := by
  intro h
  have e1 : (exec plain 30 (new Nat) ([.wait false false 5] ++ steps 0 1 ++ [.wait false false 5] ++ steps 1 1)).map (fun s => s.log) =
      some [⟨.wait false false, 5, .select 0⟩, ⟨.wait false false, 5, .select 1⟩] := by decide +kernel
  have e2 : (exec plain 30 (new Nat) (([.wait false false 5] ++ steps 0 1 ++ [.wait false false 5] ++ steps 1 1) ++ .put 5 8 :: steps 2 4)).map (fun s => (s.log, s.chans)) =
      some ([⟨.wait false false, 5, .select 0⟩, ⟨.wait false false, 5, .select 1⟩, ⟨.put 8, 5, .ret false⟩],
        [⟨5, none, false⟩, ⟨5, some 2, true⟩]) := by decide +kernel
  obtain ⟨s, hs, hl⟩ := Option.map_eq_some_iff.1 e1
  obtain ⟨t, ht, hm⟩ := Option.map_eq_some_iff.1 e2
  rw [exec_append, hs, Option.bind_some] at ht
  simp only [Prod.mk.injEq] at hm
  refine h _ _ s t 5 8 0 0 ⟨.wait false false, 5, .select 0⟩ hs (by rw [hl]; rfl) rfl rfl ht ?_ ?_
  · intro i c hi hw _
    rw [hm.1] at hi
    rcases i with _ | _ | _ | i <;> simp at hi <;> subst hi <;> first | exact ⟨_, rfl⟩ | (simp [isWait] at hw)
  · exact ⟨_, 0, ⟨5, none, false⟩, by rw [hm.1]; rfl, rfl, by rw [hm.2]; rfl, rfl, rfl⟩

def stale : List (Act Nat) := [.wait true false 5] ++ steps 0 1 ++ [.put 5 7] ++ steps 1 1 ++ [.timeout 0] ++ steps 0 3 ++ [.wait false false 5] ++ steps 2 1 ++ steps 1 3

/-- **C96** is false even then: a `CloseAndPut` that has found the channel of a `Wait` which then times out removes from the map the
channel of the next `Wait`. The next `CloseAndPut` finds nothing, and the filter tells it that the id is done: it returns nil at once,
and the `Wait` waits for ever. -/
theorem C96_serial_false : ¬ C96_claim_serial := by
  intro h
  have e1 : (exec plain 30 (new Nat) stale).map (fun s => s.log) =
      some [⟨.wait true false, 5, .wRet .error⟩, ⟨.put 7, 5, .ret true⟩, ⟨.wait false false, 5, .select 1⟩] := by decide +kernel
  have e2 : (exec plain 30 (new Nat) (stale ++ .put 5 8 :: steps 3 2)).map (fun s => (s.log, s.chans)) =
      some ([⟨.wait true false, 5, .wRet .error⟩, ⟨.put 7, 5, .ret true⟩, ⟨.wait false false, 5, .select 1⟩, ⟨.put 8, 5, .ret false⟩],
        [⟨5, none, true⟩, ⟨5, none, false⟩]) := by decide +kernel
  obtain ⟨s, hs, hl⟩ := Option.map_eq_some_iff.1 e1
  obtain ⟨t, ht, hm⟩ := Option.map_eq_some_iff.1 e2
  rw [exec_append, hs, Option.bind_some] at ht
  simp only [Prod.mk.injEq] at hm
  refine h stale (steps 3 2) s t 5 8 2 1 ⟨.wait false false, 5, .select 1⟩ (serial_of (by decide +kernel)) hs (by rw [hl]; rfl) rfl rfl ht ?_ ?_
  · intro i c hi hw _
    rw [hm.1] at hi
    rcases i with _ | _ | _ | _ | i <;> simp at hi <;> subst hi <;> first | exact ⟨_, rfl⟩ | (simp [isWait] at hw)
  · exact ⟨_, 1, ⟨5, none, false⟩, by rw [hm.1]; rfl, rfl, by rw [hm.2]; rfl, rfl, rfl⟩

/-- **C96**, if the `Wait` calls for `x` do not overlap and this is the only `CloseAndPut(x, _)` or `Close(x)` of the run: with `w`
waiting when it begins, once it has returned, `w` has timed out or been cancelled, or has received the value, or the value is in its
channel. Missing: other calls of `CloseAndPut` and `Close` for the same id (see `C96_claim_false` and `C96_serial_false`). -/
theorem C96_partial (has : List Id → Id → Bool) (loops : Nat) (as bs : List (Act V)) (s t : St V) (x : Id) (v : V) (w ch : Nat) (c : Call V)
    (hser : Serial has loops x (new V) (as ++ .put x v :: bs)) (hone : ∀ a ∈ as ++ bs, (∀ u, a ≠ .put x u) ∧ a ≠ .close x)
    (h : exec has loops (new V) as = some s) (hw : s.log[w]? = some c) (hx : c.idx = x) (hp : c.pc = .select ch)
    (ht : exec has loops s (.put x v :: bs) = some t) (e : Bool) (g : Call V) (hg : t.log[s.log.length]? = some g) (hr : g.pc = .ret e) :
    ∃ d, t.log[w]? = some d ∧
      (d.pc = .wClose ch ∨ (∃ r, (d.pc = .wAdd r ∨ d.pc = .wDel r ∨ d.pc = .wRet r) ∧ (r = .error ∨ r = .got s.log.length)) ∨
       (d.pc = .select ch ∧ ∃ k, t.chans[ch]? = some k ∧ k.buf = some s.log.length)) := by
  obtain ⟨hsa, hsb⟩ := hser.append h
  have hI := inv_exec inv_new h
  have hAP := p1_exec (x := x) inv_new (fun i j c d hi => by simp [new] at hi) ⟨fun j d hj => by simp [new] at hj, fun w c ch hj => by simp [new] at hj⟩ hsa
    (fun a ha => hone a (by simp [ha])) h
  obtain ⟨hAL, hP1⟩ := hAP
  have hcw : isWait c = true := hP1.no w c hw hx
  obtain ⟨m1, k, m2, m3, m4⟩ := hP1.sel w c ch hw hx hp
  obtain ⟨k', r1, r2⟩ := hI.ref w c ch hw (by rw [hp]; rfl)
  rw [m2] at r1; cases r1
  have hlen := (List.getElem?_eq_some_iff.1 hw).1
  have hI' := inv_act (has := has) (loops := loops) (a := .put x v) hI rfl
  have hAL' : AL x ({ s with log := s.log ++ [⟨.put v, x, .get loops⟩] } : St V) := al_act (has := has) (loops := loops) (a := .put x v) hI hAL hsb.1 rfl
  simp only [exec, act, Option.bind_some] at ht
  have hJ0 : J x w s.log.length ch ({ s with log := s.log ++ [⟨.put v, x, .get loops⟩] } : St V) := by
    refine ⟨fun j f hj hf hfw => ?_, c, ⟨.put v, x, .get loops⟩, ?_, hx, hcw, by simp, rfl, rfl, .inl ⟨hp, .inl ⟨m1, .inl ⟨_, rfl⟩, k, m2, r2.trans hx, m3, m4⟩⟩⟩
    · replace hj := get_app hj
      rcases hj with ⟨hj, _⟩ | ⟨hj, rfl⟩
      · rw [hP1.no j f hj hf] at hfw; cases hfw
      · exact hj
    · show (s.log ++ [_])[w]? = _
      rw [List.getElem?_append_left hlen]; exact hw
  obtain ⟨_, d, e', j1, j2, j3, j4, j5, j6, j7⟩ := j_exec hI' hAL' hJ0 (hsb.2 _ rfl) (fun a ha => hone a (by simp [ha])) ht
  rw [hg] at j4; cases j4
  refine ⟨d, j1, ?_⟩
  have hwt := (inv_exec hI' ht).own
  rcases j7 with ⟨j7, j8⟩ | j7
  · rw [hr] at j8
    rcases j8 with ⟨_, ⟨_, q⟩ | q, _⟩ | ⟨q, _⟩ | ⟨q, _⟩ | ⟨_, k, q1, q2, q3, q4⟩
    · cases q
    · cases q
    · cases q
    · cases q
    · exact .inr (.inr ⟨j7, k, q1, q3⟩)
  · have hcl := chan_exec (w := w) (ch := ch) (c := c) (by show (s.log ++ [_])[w]? = _; rw [List.getElem?_append_left hlen]; exact hw) (.inl hp) ht
    obtain ⟨d', hd', hcl⟩ := hcl
    rw [j1] at hd'; cases hd'
    rcases hcl with hs | hs | ⟨r, hs⟩
    · rw [hs] at j7; cases j7
    · exact .inl hs
    · refine .inr (.inl ⟨r, hs, ?_⟩)
      rcases hs with hs | hs | hs <;> rw [hs] at j7 <;> exact j7

/-- The hypotheses of `C96_partial` can be met. -/
example : Serial plain 30 5 (new Nat) ([.wait true false 5] ++ steps 0 1 ++ .put 5 7 :: steps 1 4) ∧
    (exec plain 30 (new Nat) ([.wait true false 5] ++ steps 0 1 ++ .put 5 7 :: steps 1 4)).map (fun s => s.log) =
      some [⟨.wait true false, 5, .select 0⟩, ⟨.put 7, 5, .ret false⟩] := ⟨serial_of (by decide +kernel), by decide +kernel⟩

/-- **C97**, as stated: a `CloseAndPut(x, v)` that finds no `Wait(x)` going on looks for one 31 times (30 pauses of 100 ms) before it
gives up: with no `Wait(x)` on its way and none begun until it has returned, it makes 62 steps. -/
def C97_claim : Prop :=
  ∀ (as bs : List (Act Nat)) (s t : St Nat) (x : Id) (v : Nat) (e : Bool) (g : Call Nat),
    exec plain 30 (new Nat) as = some s → (∀ (i : Nat) (c : Call Nat), s.log[i]? = some c → c.idx = x → isWait c = true → ∃ r, c.pc = .wRet r) →
    (∀ b1 b2, Act.wait b1 b2 x ∉ bs) → exec plain 30 s (.put x v :: bs) = some t →
    t.log[s.log.length]? = some g → g.pc = .ret e → bs.countP (isStep s.log.length) = 62

/-- **C97** is false: an id that has been waited for before is in the filter, and `CloseAndPut` gives up at once. A value put shortly
before the next `Wait` for that id is lost. -/
theorem C97_claim_false : ¬ C97_claim := by
  intro h
  have e1 : (exec plain 30 (new Nat) demo).map (fun s => s.log) =
      some [⟨.wait true false, 5, .wRet (.got 1)⟩, ⟨.put 7, 5, .ret false⟩] := by decide +kernel
  have e2 : (exec plain 30 (new Nat) (demo ++ .put 5 8 :: steps 2 2)).map (fun s => s.log) =
      some [⟨.wait true false, 5, .wRet (.got 1)⟩, ⟨.put 7, 5, .ret false⟩, ⟨.put 8, 5, .ret false⟩] := by decide +kernel
  obtain ⟨s, hs, hl⟩ := Option.map_eq_some_iff.1 e1
  obtain ⟨t, ht, hm⟩ := Option.map_eq_some_iff.1 e2
  rw [exec_append, hs, Option.bind_some] at ht
  have := h demo (steps 2 2) s t 5 8 false ⟨.put 8, 5, .ret false⟩ hs ?_ (by simp [steps]) ht (by rw [hl, hm]; rfl) rfl
  · rw [hl] at this
    exact absurd this (by decide)
  · intro i c hi _ hw
    rw [hl] at hi
    rcases i with _ | _ | i <;> simp at hi <;> subst hi
    · exact ⟨_, rfl⟩
    · cases hw

/-- **C97**, for an id that is not waited for in the whole run, before or after, and a filter that has no false positive on it: a
`CloseAndPut(x, v)` looks `loops + 1` times, two steps each, before it gives up. Missing: ids used before (see `C97_claim_false`). -/
theorem C97_partial (has : List Id → Id → Bool) (loops : Nat) (as bs : List (Act V)) (s t : St V) (x : Id) (v : V) (e : Bool) (g : Call V)
    (hhas : ∀ l, x ∉ l → has l x = false) (hno : ∀ b1 b2, Act.wait b1 b2 x ∉ as ++ bs)
    (h : exec has loops (new V) as = some s) (ht : exec has loops s (.put x v :: bs) = some t)
    (hg : t.log[s.log.length]? = some g) (hr : g.pc = .ret e) : bs.countP (isStep s.log.length) = 2 * (loops + 1) := by
  have hI := inv_exec inv_new h
  obtain ⟨q1, q2, q3⟩ := q0_exec (x := x) inv_new ⟨fun j d hj => by simp [new] at hj, rfl, by simp [new]⟩ (fun b1 b2 hm => hno b1 b2 (by simp [hm])) h
  have hI' := inv_act (has := has) (loops := loops) (a := .put x v) hI rfl
  simp only [exec, act, Option.bind_some] at ht
  have hQ : Q loops x s.log.length 0 ({ s with log := s.log ++ [⟨.put v, x, .get loops⟩] } : St V) := by
    refine ⟨fun j f hj hf => ?_, q2, q3, ⟨.put v, x, .get loops⟩, by simp, rfl, ?_⟩
    · rcases get_app hj with ⟨hj, _⟩ | ⟨_, rfl⟩
      · exact q1 j f hj hf
      · rfl
    · show loops ≤ loops ∧ 0 + 2 * loops = 2 * loops
      omega
  obtain ⟨_, _, _, d, hd, _, hd2⟩ := q_exec hI' hQ hhas (fun b1 b2 hm => hno b1 b2 (by simp [hm])) ht
  rw [hg] at hd; cases hd
  rw [hr] at hd2
  simp only at hd2
  omega

example : (∀ l, (5 : Id) ∉ l → plain l 5 = false) ∧
    (exec plain 30 (new Nat) ([.wait true false 6] ++ steps 0 1 ++ .put 5 8 :: steps 1 62)).map (fun s => s.log) =
      some [⟨.wait true false, 6, .select 0⟩, ⟨.put 8, 5, .ret false⟩] := ⟨by simp [plain], by decide +kernel⟩

/-- **C94** for `FastAwait`, as stated: a `WaitWithCancel` that waits returns when its context is cancelled. -/
def C94_claim_fast : Prop :=
  ∀ (as : List (Act Nat)) (s : St Nat) (w ch : Nat) (timed : Bool) (x : Id), exec plain 30 (new Nat) as = some s →
    s.log[w]? = some ⟨.wait timed true, x, .select ch⟩ → ∃ t, act plain 30 s (.cancel w) = some t

/-- **C94** is false for `FastAwait` too: with `timeout <= 0` the context is not looked at. -/
theorem C94_claim_fast_false : ¬ C94_claim_fast := by
  intro h
  have e : (exec plain 30 (new Nat) ([.wait false true 5] ++ steps 0 1)).map (fun s => s.log) = some [⟨.wait false true, 5, .select 0⟩] := by decide +kernel
  obtain ⟨s, hs, hl⟩ := Option.map_eq_some_iff.1 e
  obtain ⟨t, ht⟩ := h _ s 0 0 false 5 hs (by rw [hl]; rfl)
  simp [act, hl] at ht

/-- **C94** for `FastAwait`, with `timeout > 0`: a `WaitWithCancel` that waits can take the cancellation, and then returns with an
error in three steps of its own. Missing: `timeout <= 0` (see `C94_claim_fast_false`). -/
theorem C94_fast_partial (has : List Id → Id → Bool) (loops : Nat) (as : List (Act V)) (s : St V) (w ch : Nat) (x : Id) (h : exec has loops (new V) as = some s)
    (hw : s.log[w]? = some ⟨.wait true true, x, .select ch⟩) :
    ∃ t, exec has loops s [.cancel w, .step w, .step w, .step w] = some t ∧ t.log[w]? = some ⟨.wait true true, x, .wRet .error⟩ := by
  obtain ⟨k, g1, g2⟩ := (inv_exec inv_new h).ref w _ ch hw rfl
  obtain ⟨hl, hl2⟩ := List.getElem?_eq_some_iff.1 hw
  simp [exec, act, St.goto, step, g1, hl, hl2]

example : ∃ s, exec plain 30 (new Nat) ([.wait true true 5] ++ steps 0 1) = some s ∧ s.log[0]? = some ⟨.wait true true, 5, .select 0⟩ := by
  have e : (exec plain 30 (new Nat) ([.wait true true 5] ++ steps 0 1)).map (fun s => s.log) = some [⟨.wait true true, 5, .select 0⟩] := by decide +kernel
  obtain ⟨s, hs, hl⟩ := Option.map_eq_some_iff.1 e
  exact ⟨s, hs, by rw [hl]; rfl⟩

end Gofer.Props.FastAwait
