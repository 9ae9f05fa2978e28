import Verif.Proof.AwaitSerial

/-! # Properties of `Await` (lock/await.go) -/
namespace Gofer.Props.Await
open Gofer.Await Gofer.Count

variable {V : Type}

/-- The actions `step i`, `n` times. -/
def steps (i n : Nat) : List (Act V) := List.replicate n (.step i)

/-- **C62**, values: in any execution, by any number of goroutines, a `Wait(x)` that returned a value sent by call `p` returned
the value of a `CloseAndPut(x, v)`; the id is the same. -/
theorem C62_value (ix : Id → Nat) (loops : Nat) (as : List (Act V)) (s : St V) (h : exec ix loops (new V) as = some s)
    (w p : Nat) (c : Call V) (hw : s.log[w]? = some c) (hr : c.pc = .wRet (.got p)) :
    isWait c = true ∧ ∃ d v, s.log[p]? = some d ∧ d.kind = .put v ∧ d.idx = c.idx := by
  have hI := inv_exec (inv_new ix) h
  have hk := hI.ko w c hw
  refine ⟨by cases hq : c.kind <;> simp_all [kindOk, isWait], ?_⟩
  obtain ⟨d, h1, h2, h3⟩ := hI.gi w c p hw (by rw [hr]; rfl)
  cases hd : d.kind with
  | put v => exact ⟨d, v, h1, hd, h3⟩
  | wait => simp [isPut, hd] at h2
  | close => simp [isPut, hd] at h2

/-- **C62**, once: the value of one `CloseAndPut` is returned by at most one `Wait`. -/
theorem C62_once (ix : Id → Nat) (loops : Nat) (as : List (Act V)) (s : St V) (h : exec ix loops (new V) as = some s)
    (w w' p : Nat) (c c' : Call V) (hw : s.log[w]? = some c) (hr : c.pc = .wRet (.got p)) (hw' : s.log[w']? = some c') (hr' : c'.pc = .wRet (.got p)) :
    w = w' := by
  have hI := inv_exec (inv_new ix) h
  have hle : s.log.countP (hasGot p) ≤ 1 := by
    have h1 := hI.occ p
    have h2 : sentN s.log p ≤ 1 := by
      unfold sentN
      cases s.log[p]? with
      | none => simp
      | some d => cases hs : sent d <;> simp [hs]
    unfold Gofer.Await.occ at h1
    omega
  exact cnt_one hle hw hw' (by simp [hasGot, gotOf, hr]) (by simp [hasGot, gotOf, hr'])

/-- **C62**, zero values: a `Wait(x)` that returned the zero value without an error found its channel closed: by a `Close(x)` or a
`CloseAndPut(x, _)`, or by another `Wait(x)` that timed out or was cancelled. -/
theorem C62_zero (ix : Id → Nat) (loops : Nat) (as : List (Act V)) (s : St V) (h : exec ix loops (new V) as = some s)
    (w : Nat) (c : Call V) (hw : s.log[w]? = some c) (hr : c.pc = .wRet .zero) : Closer c.idx s :=
  (inv3_exec (inv_new ix) inv3_new h).zr w c hw (by rw [hr]; trivial)

/-- **C62**, no blocking: a `CloseAndPut` or `Close` that has the mutex of its id can always make its next step, up to releasing
the mutex; in particular the send does not block. A `Wait` that has the mutex can also always make its next step. -/
theorem C62_unblocked (ix : Id → Nat) (loops : Nat) (as : List (Act V)) (s : St V) (h : exec ix loops (new V) as = some s)
    (i : Nat) (c : Call V) (hi : s.log[i]? = some c)
    (hp : c.pc = .get ∨ (∃ ch, c.pc = .del ch) ∨ (∃ ch, c.pc = .send ch) ∨ (∃ ch, c.pc = .close ch) ∨ (∃ e, c.pc = .unlock e) ∨
      c.pc = .wLocked ∨ (∃ ch, c.pc = .wPut ch) ∨ ∃ ch, c.pc = .wUnlock ch) :
    ∃ t, act ix loops s (.step i) = some t := by
  have hI := inv_exec (inv_new ix) h
  simp only [act, hi, Option.bind_some, step]
  rcases hp with hp | ⟨ch, hp⟩ | ⟨ch, hp⟩ | ⟨ch, hp⟩ | ⟨e, hp⟩ | hp | ⟨ch, hp⟩ | ⟨ch, hp⟩
  · simp only [hp]; split <;> exact ⟨_, rfl⟩
  · simp only [hp]; exact ⟨_, rfl⟩
  · obtain ⟨k, g1, g2⟩ := hI.nb i c ch hi (by rw [hp]; rfl)
    simp only [hp, g1, g2]
    split <;> exact ⟨_, rfl⟩
  · obtain ⟨k, g1, g2⟩ := hI.ref i c ch hi (by rw [hp]; rfl)
    simp only [hp, g1]
    split <;> exact ⟨_, rfl⟩
  · simp only [hp]; exact ⟨_, rfl⟩
  · simp only [hp]; split <;> exact ⟨_, rfl⟩
  · simp only [hp]; exact ⟨_, rfl⟩
  · simp only [hp]; exact ⟨_, rfl⟩

/-- A waiter gets the value `7`. -/
def demo : List (Act Nat) := [.wait true false 5] ++ steps 0 4 ++ [.put 5 7] ++ steps 1 7 ++ steps 0 2
example : (exec (fun x => x.toNat % 4) 1000 (new Nat) demo).map (fun s => s.log) =
    some [⟨.wait true false, 5, .wRet (.got 1)⟩, ⟨.put 7, 5, .ret false⟩] := by decide +kernel
/-- A waiter gets the zero value, after `Close`. -/
example : (exec (fun x => x.toNat % 4) 1000 (new Nat) ([.wait true false 5] ++ steps 0 4 ++ [.close 5] ++ steps 1 6 ++ steps 0 2)).map (fun s => s.log) =
    some [⟨.wait true false, 5, .wRet .zero⟩, ⟨.close, 5, .ret false⟩] := by decide +kernel
/-- A `CloseAndPut` about to send. -/
example : (exec (fun x => x.toNat % 4) 1000 (new Nat) ([.wait true false 5] ++ steps 0 4 ++ [.put 5 7] ++ steps 1 4)).map (fun s => s.log) =
    some [⟨.wait true false, 5, .select 0⟩, ⟨.put 7, 5, .send 0⟩] := by decide +kernel

/-- **C63**, as stated: if call `w` waits for `x` when a `CloseAndPut(x, v)` begins, and that call and all others of
`CloseAndPut(x, _)` and `Close(x)` have returned, then `w` is not left waiting with nothing to receive. -/
def C63_claim : Prop :=
  ∀ (ix : Id → Nat) (as bs : List (Act Nat)) (s t : St Nat) (x : Id) (v w ch : Nat) (c : Call Nat),
    exec ix 1000 (new Nat) as = some s → s.log[w]? = some c → c.idx = x → c.pc = .select ch →
    exec ix 1000 s (.put x v :: bs) = some t → Quiet x t → ¬ Stuck t w

def lostA : List (Act Nat) := [.wait false false 5] ++ steps 0 4 ++ [.put 5 7] ++ steps 1 7 ++ steps 0 1 ++ [.wait false false 5] ++ steps 2 4 ++ steps 0 1
def lostB : List (Act Nat) := steps 3 1001

/-- **C63** is false: a `Wait` that has its value removes, on its way out, the channel of the next `Wait` for the same id from
the map. The next `CloseAndPut` finds no channel, returns nil, and the second `Wait` waits for ever. -/
theorem C63_claim_false : ¬ C63_claim := by
  intro h
  have e1 : (exec (fun _ => 0) 1000 (new Nat) lostA).map (fun s => s.log) =
      some [⟨.wait false false, 5, .wRet (.got 1)⟩, ⟨.put 7, 5, .ret false⟩, ⟨.wait false false, 5, .select 1⟩] := by decide +kernel
  have e2 : (exec (fun _ => 0) 1000 (new Nat) (lostA ++ .put 5 8 :: lostB)).map (fun s => (s.log, s.chans)) =
      some ([⟨.wait false false, 5, .wRet (.got 1)⟩, ⟨.put 7, 5, .ret false⟩, ⟨.wait false false, 5, .select 1⟩, ⟨.put 8, 5, .ret false⟩],
        [⟨5, none, true⟩, ⟨5, none, false⟩]) := by decide +kernel
  obtain ⟨s, hs, hl⟩ := Option.map_eq_some_iff.1 e1
  obtain ⟨t, ht, hm⟩ := Option.map_eq_some_iff.1 e2
  rw [exec_append, hs, Option.bind_some] at ht
  simp only [Prod.mk.injEq] at hm
  refine h _ lostA lostB s t 5 8 2 1 ⟨.wait false false, 5, .select 1⟩ hs (by rw [hl]; rfl) rfl rfl ht ?_ ?_
  · intro i c hi hw _
    rw [hm.1] at hi
    rcases i with _ | _ | _ | _ | i <;> simp at hi <;> subst hi <;> first | exact ⟨_, rfl⟩ | (simp [isWait] at hw)
  · exact ⟨_, 1, ⟨5, none, false⟩, by rw [hm.1]; rfl, rfl, by rw [hm.2]; rfl, rfl, rfl⟩

/-- **C63**, if the `Wait` calls for `x` do not overlap (a `Wait(x)` begins after the earlier ones have returned): if call `w` waits
for `x` when a `CloseAndPut(x, v)` begins, and that call and all others of `CloseAndPut(x, _)` and `Close(x)` have returned, then `w`
is not left waiting with nothing to receive. Missing: overlapping `Wait` calls for one id (see `C63_claim_false`). -/
theorem C63_partial (ix : Id → Nat) (loops : Nat) (as bs : List (Act V)) (s t : St V) (x : Id) (v : V) (w ch : Nat) (c : Call V)
    (hser : Serial ix loops x (new V) (as ++ .put x v :: bs))
    (h : exec ix loops (new V) as = some s) (hw : s.log[w]? = some c) (hx : c.idx = x) (hp : c.pc = .select ch)
    (ht : exec ix loops s (.put x v :: bs) = some t) (hq : Quiet x t) : ¬ Stuck t w := by
  rintro ⟨d, ch', k, hd, hdp, hk, hb, hc⟩
  obtain ⟨hsa, hsb⟩ := hser.append h
  have hI := inv_exec (inv_new ix) h
  have hI2 := inv2_exec (inv_new ix) (inv2_new x) hsa h
  have hIt := inv_exec hI ht
  have hI2t := inv2_exec hI hI2 hsb ht
  have hcw : isWait c = true := by
    have := hI.ko w c hw
    cases hk : c.kind <;> simp_all [kindOk, isWait]
  have hlen := (List.getElem?_eq_some_iff.1 hw).1
  simp only [exec, act, Option.bind_some] at ht
  have hJ0 : J x { s with log := s.log ++ [⟨.put v, x, .has loops⟩] } s.log.length w ch := by
    refine ⟨c, ⟨.put v, x, .has loops⟩, ?_, hx, hcw, ?_, rfl, rfl, ?_, ?_, ?_, fun _ _ => rfl⟩
    · show (s.log ++ [_])[w]? = _
      rw [List.getElem?_append_left hlen]; exact hw
    · simp
    · intro ch' e; rw [hp] at e; cases e; rfl
    · intro ch' e; rw [hp] at e; cases e
    · rw [hp]; exact id
  have hI' := inv_act (loops := loops) (a := .put x v) hI rfl
  have hI2' := inv2_act (loops := loops) (a := .put x v) hI hI2 hsb.1 rfl
  obtain ⟨d', e, j1, j2, j3, j4, j5, j6, j7, j8, j9, j10⟩ := J_exec hI' hI2' hJ0 (hsb.2 _ rfl) ht
  rw [hd] at j1; cases j1
  have := j7 ch' hdp
  subst this
  obtain ⟨e', he'⟩ := hq _ e j4 j6 j5
  have hm : t.m x ≠ some ch' := by
    intro hm
    have := j10 hdp hm
    rw [he'] at this; cases this
  rcases hI2t.ok ch' ⟨w, d, hd, j2, by rw [hdp]; rfl⟩ with g | ⟨q, f, hf, hfp⟩ | ⟨k', g1, g2⟩
  · exact hm g
  · obtain ⟨k1, g1, g2⟩ := hIt.ref q f ch' hf (takenPc_chan hfp)
    obtain ⟨k2, g3, g4⟩ := hIt.ref w d ch' hd (by rw [hdp]; rfl)
    rw [g1] at g3; cases g3
    have hfw : isWait f = false := by
      have := hIt.ko q f hf
      cases hk : f.kind <;> cases hfp' : f.pc <;> simp_all [kindOk, isWait, takenPc]
    obtain ⟨e2, he2⟩ := hq q f hf hfw (g2.symm.trans (g4.trans j2))
    rw [he2] at hfp; cases hfp
  · rw [hk] at g1; cases g1
    rcases g2 with g2 | g2
    · exact g2 hb
    · rw [hc] at g2; cases g2

/-- **C63**, which value: if further that `CloseAndPut(x, v)` is the only call of `CloseAndPut` and `Close` for `x` so far, then `w`
has timed out or been cancelled, or has received `v`, or `v` is in its channel. -/
theorem C63_partial_value (ix : Id → Nat) (loops : Nat) (as bs : List (Act V)) (s t : St V) (x : Id) (v : V) (w ch : Nat) (c : Call V)
    (hser : Serial ix loops x (new V) (as ++ .put x v :: bs))
    (h : exec ix loops (new V) as = some s) (hw : s.log[w]? = some c) (hx : c.idx = x) (hp : c.pc = .select ch)
    (ht : exec ix loops s (.put x v :: bs) = some t) (hq : Quiet x t)
    (hone : ∀ (j : Nat) (d : Call V), t.log[j]? = some d → d.idx = x → isWait d = false → j = s.log.length) :
    ∃ d, t.log[w]? = some d ∧
      (d.pc = .wClose ch ∨ d.pc = .wDel .error ∨ d.pc = .wRet .error ∨
       d.pc = .wDel (.got s.log.length) ∨ d.pc = .wRet (.got s.log.length) ∨
       (d.pc = .select ch ∧ ∃ k, t.chans[ch]? = some k ∧ k.buf = some s.log.length)) := by
  have hst := C63_partial ix loops as bs s t x v w ch c hser h hw hx hp ht hq
  obtain ⟨hsa, hsb⟩ := hser.append h
  have hI := inv_exec (inv_new ix) h
  have hI2 := inv2_exec (inv_new ix) (inv2_new x) hsa h
  have hIt := inv_exec hI ht
  have hI2t := inv2_exec hI hI2 hsb ht
  have hcw : isWait c = true := by
    have := hI.ko w c hw
    cases hk : c.kind <;> simp_all [kindOk, isWait]
  have hlen := (List.getElem?_eq_some_iff.1 hw).1
  have hput : ∃ e, t.log[s.log.length]? = some e ∧ e.kind = .put v ∧ e.idx = x := by
    simp only [exec, act, Option.bind_some] at ht
    exact log_keeps (c := ⟨.put v, x, .has loops⟩) ht (by simp)
  have nocl : ¬ closeCall x t.log := by
    rintro ⟨j, d, hj, hd, hdx⟩
    have := hone j d hj hdx (by simp [isWait, hd])
    subst this
    obtain ⟨e, he, hek, _⟩ := hput
    rw [hj] at he; cases he
    rw [hd] at hek; cases hek
  simp only [exec, act, Option.bind_some] at ht
  have hJ0 : J x { s with log := s.log ++ [⟨.put v, x, .has loops⟩] } s.log.length w ch := by
    refine ⟨c, ⟨.put v, x, .has loops⟩, ?_, hx, hcw, ?_, rfl, rfl, ?_, ?_, ?_, fun _ _ => rfl⟩
    · show (s.log ++ [_])[w]? = _
      rw [List.getElem?_append_left hlen]; exact hw
    · simp
    · intro ch' e; rw [hp] at e; cases e; rfl
    · intro ch' e; rw [hp] at e; cases e
    · rw [hp]; exact id
  have hI' := inv_act (loops := loops) (a := .put x v) hI rfl
  have hI2' := inv2_act (loops := loops) (a := .put x v) hI hI2 hsb.1 rfl
  obtain ⟨d, e, j1, j2, j3, j4, j5, j6, j7, j8, j9, j10⟩ := J_exec hI' hI2' hJ0 (hsb.2 _ rfl) ht
  have hcl := JC_exec (w := w) (ch := ch) (c := c) (by show (s.log ++ [_])[w]? = _; rw [List.getElem?_append_left hlen]; exact hw) (.inl hp) ht
  obtain ⟨d', hd', hcl⟩ := hcl
  rw [j1] at hd'; cases hd'
  refine ⟨d, j1, ?_⟩
  have hgot : ∀ p, gotOf d.pc = some p → p = s.log.length := by
    intro p hg
    obtain ⟨f, f1, f2, f3⟩ := hIt.gi w d p j1 hg
    exact hone p f f1 (f3.trans j2) (by cases hk : f.kind <;> simp_all [isPut, isWait])
  rcases hcl with hs | hs | ⟨r, hs⟩ | ⟨r, hs⟩
  · obtain ⟨k, g1, g2⟩ := hIt.ref w d ch j1 (by rw [hs]; rfl)
    cases hb : k.buf with
    | some p =>
      obtain ⟨f, f1, f2, f3⟩ := hIt.bi ch k p g1 hb
      have := hone p f f1 (f3.trans (g2.trans j2)) (by cases hk : f.kind <;> simp_all [isPut, isWait])
      subst this
      exact .inr (.inr (.inr (.inr (.inr ⟨hs, k, g1, hb⟩))))
    | none =>
      cases hc : k.closed with
      | true => exact absurd (hI2t.z1 ch k ⟨w, d, j1, j2, by rw [hs]; rfl⟩ g1 hc hb) nocl
      | false => exact absurd ⟨d, ch, k, j1, hs, g1, hb, hc⟩ hst
  · exact .inl hs
  · cases r with
    | got p => rw [hgot p (by rw [hs]; rfl)] at hs; exact .inr (.inr (.inr (.inl hs)))
    | zero => exact absurd (hI2t.z2 w d j1 j2 (by rw [hs]; trivial)) nocl
    | error => exact .inr (.inl hs)
  · cases r with
    | got p => rw [hgot p (by rw [hs]; rfl)] at hs; exact .inr (.inr (.inr (.inr (.inl hs))))
    | zero => exact absurd (hI2t.z2 w d j1 j2 (by rw [hs]; trivial)) nocl
    | error => exact .inr (.inr (.inl hs))

/-- The hypotheses of `C63_partial` can be met: two `Wait` calls for one id, one after the other. -/
def twice : List (Act Nat) := demo ++ [.wait true false 5] ++ steps 2 4
example : ∃ s t, exec (fun _ => 0) 1000 (new Nat) twice = some s ∧ s.log[2]? = some ⟨.wait true false, 5, .select 1⟩ ∧
    exec (fun _ => 0) 1000 s (.put 5 9 :: steps 3 7) = some t ∧ t.log[3]? = some ⟨.put 9, 5, .ret false⟩ ∧
    Quiet 5 t ∧ Serial (fun _ => 0) 1000 5 (new Nat) (twice ++ .put 5 9 :: steps 3 7) := by
  have e1 : (exec (fun _ => 0) 1000 (new Nat) twice).map (fun s => s.log) =
      some [⟨.wait true false, 5, .wRet (.got 1)⟩, ⟨.put 7, 5, .ret false⟩, ⟨.wait true false, 5, .select 1⟩] := by decide +kernel
  have e2 : (exec (fun _ => 0) 1000 (new Nat) (twice ++ .put 5 9 :: steps 3 7)).map (fun s => s.log) =
      some [⟨.wait true false, 5, .wRet (.got 1)⟩, ⟨.put 7, 5, .ret false⟩, ⟨.wait true false, 5, .select 1⟩, ⟨.put 9, 5, .ret false⟩] := by decide +kernel
  obtain ⟨s, hs, hl⟩ := Option.map_eq_some_iff.1 e1
  obtain ⟨t, ht, hm⟩ := Option.map_eq_some_iff.1 e2
  rw [exec_append, hs, Option.bind_some] at ht
  refine ⟨s, t, hs, by rw [hl]; rfl, ht, by rw [hm]; rfl, ?_, serial_of (by decide +kernel)⟩
  intro i c hi hw _
  rw [hm] at hi
  rcases i with _ | _ | _ | _ | i <;> simp at hi <;> subst hi <;> first | exact ⟨_, rfl⟩ | (simp [isWait] at hw)

/-- The hypotheses of `C63_partial_value`, `C93_partial` and `C92_partial` can be met. -/
example : Serial (fun _ => 0) 1000 5 (new Nat) demo ∧
    Serial (fun _ => 0) 1000 5 (new Nat) ([.wait true false 5] ++ steps 0 4 ++ [.close 5] ++ steps 1 6 ++ steps 0 2) :=
  ⟨serial_of (by decide +kernel), serial_of (by decide +kernel)⟩

/-- **C92**, as stated: a `Wait(x)` returns the zero value without an error only if `Close(x)` has been called. -/
def C92_claim : Prop :=
  ∀ (ix : Id → Nat) (as : List (Act Nat)) (s : St Nat) (w : Nat) (c : Call Nat), exec ix 1000 (new Nat) as = some s →
    s.log[w]? = some c → c.pc = .wRet .zero → ∃ (j : Nat) (d : Call Nat), s.log[j]? = some d ∧ d.kind = .close ∧ d.idx = c.idx

/-- **C92** is false: two goroutines wait for one id; the first one's timeout closes the channel they share, and the second one
returns the zero value and a nil error though nobody called `Close` or `CloseAndPut`. -/
theorem C92_claim_false : ¬ C92_claim := by
  intro h
  have e : (exec (fun _ => 0) 1000 (new Nat) ([.wait true false 5] ++ steps 0 4 ++ [.wait false false 5] ++ steps 1 3 ++ [.timeout 0] ++ steps 0 2 ++ steps 1 2)).map
      (fun s => s.log) = some [⟨.wait true false, 5, .wRet .error⟩, ⟨.wait false false, 5, .wRet .zero⟩] := by decide +kernel
  obtain ⟨s, hs, hl⟩ := Option.map_eq_some_iff.1 e
  obtain ⟨j, d, hj, hd, _⟩ := h _ _ s 1 ⟨.wait false false, 5, .wRet .zero⟩ hs (by rw [hl]; rfl) rfl
  rw [hl] at hj
  rcases j with _ | _ | j <;> simp at hj <;> subst hj <;> cases hd

/-- **C92**, if the `Wait` calls for `x` do not overlap: a `Wait(x)` returns the zero value without an error only if `Close(x)` has
been called. Missing: overlapping `Wait` calls for one id (see `C92_claim_false`). -/
theorem C92_partial (ix : Id → Nat) (loops : Nat) (as : List (Act V)) (s : St V) (x : Id) (w : Nat) (c : Call V) (h : exec ix loops (new V) as = some s)
    (hser : Serial ix loops x (new V) as) (hw : s.log[w]? = some c) (hx : c.idx = x) (hp : c.pc = .wRet .zero) :
    ∃ (j : Nat) (d : Call V), s.log[j]? = some d ∧ d.kind = .close ∧ d.idx = x :=
  (inv2_exec (inv_new ix) (inv2_new x) hser h).z2 w c hw hx (by rw [hp]; trivial)

/-- **C93**, as stated: a `CloseAndPut` that has returned nil has given its value to a `Wait`, or will: the value is in the channel
of one that waits. -/
def C93_claim : Prop :=
  ∀ (ix : Id → Nat) (as : List (Act Nat)) (s : St Nat) (p v : Nat) (c : Call Nat), exec ix 1000 (new Nat) as = some s →
    s.log[p]? = some c → c.kind = .put v → c.pc = .ret false →
    ∃ (w : Nat) (d : Call Nat), s.log[w]? = some d ∧ (d.pc = .wRet (.got p) ∨ d.pc = .wDel (.got p) ∨
      ∃ ch k, (d.pc = .select ch ∨ d.pc = .wUnlock ch) ∧ s.chans[ch]? = some k ∧ k.buf = some p)

/-- **C93** is false: with no `Wait` at all, `CloseAndPut` tries again for a second and returns nil. -/
theorem C93_claim_false : ¬ C93_claim := by
  intro h
  have e : (exec (fun _ => 0) 1000 (new Nat) ([.put 5 7] ++ steps 0 1001)).map (fun s => s.log) = some [⟨.put 7, 5, .ret false⟩] := by decide +kernel
  obtain ⟨s, hs, hl⟩ := Option.map_eq_some_iff.1 e
  obtain ⟨w, d, hw, hd⟩ := h _ _ s 0 7 ⟨.put 7, 5, .ret false⟩ hs (by rw [hl]; rfl) rfl rfl
  rw [hl] at hw
  rcases w with _ | w <;> simp at hw
  subst hw
  rcases hd with hd | hd | ⟨ch, k, hd | hd, _⟩ <;> cases hd

/-- **C93** is false also when it found a waiter: the waiter times out after the value has been sent. -/
theorem C93_timeout : ∃ s, exec (fun _ => 0) 1000 (new Nat) ([.wait true false 5] ++ steps 0 4 ++ [.put 5 7] ++ steps 1 7 ++ [.timeout 0] ++ steps 0 2) = some s ∧
    s.log = [⟨.wait true false, 5, .wRet .error⟩, ⟨.put 7, 5, .ret false⟩] := by
  have e : (exec (fun _ => 0) 1000 (new Nat) ([.wait true false 5] ++ steps 0 4 ++ [.put 5 7] ++ steps 1 7 ++ [.timeout 0] ++ steps 0 2)).map (fun s => s.log) =
    some [⟨.wait true false, 5, .wRet .error⟩, ⟨.put 7, 5, .ret false⟩] := by decide +kernel
  exact Option.map_eq_some_iff.1 e

/-- **C93**, the other direction is false too: with two `Wait` calls for one id, `CloseAndPut` returns an error ("close of closed
channel") though its value has been received. -/
theorem C93_error : ∃ s, exec (fun _ => 0) 1000 (new Nat) ([.wait false false 5] ++ steps 0 4 ++ [.wait true false 5] ++ steps 1 3 ++ [.put 5 7] ++ steps 2 5 ++
      [.timeout 1] ++ steps 1 2 ++ steps 2 2 ++ steps 0 2) = some s ∧
    s.log = [⟨.wait false false, 5, .wRet (.got 2)⟩, ⟨.wait true false, 5, .wRet .error⟩, ⟨.put 7, 5, .ret true⟩] := by
  have e : (exec (fun _ => 0) 1000 (new Nat) ([.wait false false 5] ++ steps 0 4 ++ [.wait true false 5] ++ steps 1 3 ++ [.put 5 7] ++ steps 2 5 ++
      [.timeout 1] ++ steps 1 2 ++ steps 2 2 ++ steps 0 2)).map (fun s => s.log) =
    some [⟨.wait false false, 5, .wRet (.got 2)⟩, ⟨.wait true false, 5, .wRet .error⟩, ⟨.put 7, 5, .ret true⟩] := by decide +kernel
  exact Option.map_eq_some_iff.1 e

/-- **C93**, if the `Wait` calls for `x` do not overlap and this is the only `CloseAndPut(x, _)` or `Close(x)` so far: with call `w`
waiting when it begins, once it has returned (nil or an error) and `w` has returned without an error, `w` has returned its value.
Missing: see `C93_claim_false`, `C93_timeout` and `C93_error`. -/
theorem C93_partial (ix : Id → Nat) (loops : Nat) (as bs : List (Act V)) (s t : St V) (x : Id) (v : V) (w ch : Nat) (c : Call V)
    (hser : Serial ix loops x (new V) (as ++ .put x v :: bs))
    (h : exec ix loops (new V) as = some s) (hw : s.log[w]? = some c) (hx : c.idx = x) (hp : c.pc = .select ch)
    (ht : exec ix loops s (.put x v :: bs) = some t) (hq : Quiet x t)
    (hone : ∀ (j : Nat) (d : Call V), t.log[j]? = some d → d.idx = x → isWait d = false → j = s.log.length)
    (r : Res) (d : Call V) (hd : t.log[w]? = some d) (hr : d.pc = .wRet r) (hne : r ≠ .error) : r = .got s.log.length := by
  obtain ⟨d', h1, h2⟩ := C63_partial_value ix loops as bs s t x v w ch c hser h hw hx hp ht hq hone
  rw [hd] at h1; cases h1
  rw [hr] at h2
  rcases h2 with h2 | h2 | h2 | h2 | h2 | ⟨h2, _⟩ <;> cases h2
  · exact absurd rfl hne
  · rfl

/-- **C94**, as stated: a `WaitWithCancel` that waits returns when its context is cancelled. -/
def C94_claim : Prop :=
  ∀ (ix : Id → Nat) (as : List (Act Nat)) (s : St Nat) (w ch : Nat) (timed : Bool) (x : Id), exec ix 1000 (new Nat) as = some s →
    s.log[w]? = some ⟨.wait timed true, x, .select ch⟩ → ∃ t, act ix 1000 s (.cancel w) = some t

/-- **C94** is false: with `timeout <= 0` the context is not looked at. -/
theorem C94_claim_false : ¬ C94_claim := by
  intro h
  have e : (exec (fun _ => 0) 1000 (new Nat) ([.wait false true 5] ++ steps 0 4)).map (fun s => s.log) = some [⟨.wait false true, 5, .select 0⟩] := by decide +kernel
  obtain ⟨s, hs, hl⟩ := Option.map_eq_some_iff.1 e
  obtain ⟨t, ht⟩ := h _ _ s 0 0 false 5 hs (by rw [hl]; rfl)
  simp [act, hl] at ht

/-- **C94**, with `timeout > 0`: a `WaitWithCancel` that waits can take the cancellation, and then returns with an error in two
steps of its own. Missing: `timeout <= 0` (see `C94_claim_false`). -/
theorem C94_partial (ix : Id → Nat) (loops : Nat) (as : List (Act V)) (s : St V) (w ch : Nat) (x : Id) (h : exec ix loops (new V) as = some s)
    (hw : s.log[w]? = some ⟨.wait true true, x, .select ch⟩) :
    ∃ t, exec ix loops s [.cancel w, .step w, .step w] = some t ∧ t.log[w]? = some ⟨.wait true true, x, .wRet .error⟩ := by
  obtain ⟨k, g1, g2⟩ := (inv_exec (inv_new ix) h).ref w _ ch hw rfl
  obtain ⟨hl, hl2⟩ := List.getElem?_eq_some_iff.1 hw
  simp [exec, act, St.goto, step, g1, hl, hl2]

example : ∃ s, exec (fun _ => 0) 1000 (new Nat) ([.wait true true 5] ++ steps 0 4) = some s ∧ s.log[0]? = some ⟨.wait true true, 5, .select 0⟩ := by
  have e : (exec (fun _ => 0) 1000 (new Nat) ([.wait true true 5] ++ steps 0 4)).map (fun s => s.log) = some [⟨.wait true true, 5, .select 0⟩] := by decide +kernel
  obtain ⟨s, hs, hl⟩ := Option.map_eq_some_iff.1 e
  exact ⟨s, hs, by rw [hl]; rfl⟩

end Gofer.Props.Await
