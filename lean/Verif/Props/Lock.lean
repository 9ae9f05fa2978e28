import Verif.Proof.Lock
import Mathlib.Data.Fintype.Pigeonhole

/-! # `Numlock`, `Strlock`, `LimitLock`: properties C59–C61, C90, C91 -/
namespace Gofer.Props.Lock
open Gofer.Lock Gofer.Count

variable {K : Type}

/-- `s` is reached by an execution; `ix` gives the mutex of a key. -/
def Reached (ix : K → Option Nat) (as : List (Act K)) (s : St K) : Prop := exec ix (new K) as = some s

theorem Reached.inv {ix : K → Option Nat} {as : List (Act K)} {s : St K} (h : Reached ix as s) : Inv ix s := inv_exec (inv_new ix) h

/-- A call that asks for the lock and cannot get on. -/
def Blocked (ix : K → Option Nat) (s : St K) (i : Nat) : Prop :=
  (∃ c, s.log[i]? = some c ∧ (c.pc = .enter ∨ c.pc = .announced)) ∧ act ix s (.step i) = none

/-- Two calls that hold locks with the same mutex, one of them for writing, are the same call. -/
theorem exclusive {ix : K → Option Nat} {s : St K} (h : Inv ix s) {i j m : Nat} {c d : Call K} (hi : s.log[i]? = some c) (hj : s.log[j]? = some d)
    (hc : c.pc = .held) (hd : d.pc = .held) (hcm : ix c.key = some m) (hdm : ix d.key = some m) (hw : c.write = true) : i = j := by
  have h1 : s.log.countP (wr ix m) ≤ 1 := by rw [h.w m]; exact Bool.toNat_le _
  cases hdw : d.write with
  | true => exact cnt_one h1 hi hj (by simp [wr, wPc, hc, hw, hcm]) (by simp [wr, wPc, hd, hdw, hdm])
  | false =>
    have h2 := h.ex i c m hi hw hc hcm
    have h3 := cnt_pos (p := rd ix m) hj (by simp [rd, rPc, hd, hdw, hdm])
    have := h.r m
    omega

/-- A call is blocked exactly if another call has, or for a writer also is waiting with priority for, the same mutex. -/
theorem blocked_by {ix : K → Option Nat} {s : St K} (h : Inv ix s) {i m : Nat} {c : Call K} (hi : s.log[i]? = some c) (hm : ix c.key = some m)
    (hb : Blocked ix s i) : ∃ (j : Nat) (d : Call K), j ≠ i ∧ s.log[j]? = some d ∧ ix d.key = some m ∧ (c.write = true ∨ d.write = true) ∧
      (d.pc = .held ∨ (d.pc = .announced ∧ d.write = true)) := by
  obtain ⟨⟨c', hc', hpc⟩, hn⟩ := hb
  rw [hi] at hc'; cases hc'
  simp only [act, hi, Option.bind_some, step, hm] at hn
  rcases hpc with hp | hp
  · simp only [hp] at hn
    have hw : (s.mu m).w = true := by
      cases hwr : c.write <;> cases htr : c.try_ <;> cases hxw : (s.mu m).w <;> simp_all
      split at hn <;> cases hn
    obtain ⟨j, d, hj, hd, hdw, hdp⟩ := holder_of_w h hw
    refine ⟨j, d, fun e => ?_, hj, hd, .inr hdw, hdp.imp id fun x => ⟨x, hdw⟩⟩
    subst e; rw [hi] at hj; cases hj
    rcases hdp with x | x <;> rw [hp] at x <;> cases x
  · simp only [hp] at hn
    have hr : (s.mu m).r ≠ 0 := fun e => by simp [e] at hn
    obtain ⟨j, d, hj, hd, hdw, hdp⟩ := holder_of_r h hr
    refine ⟨j, d, fun e => ?_, hj, hd, .inl (h.an i c hi hp), .inl hdp⟩
    subst e; rw [hi] at hj; cases hj
    rw [hp] at hdp; cases hdp

/-- A `Try` call never waits. -/
theorem try_step {ix : K → Option Nat} {s : St K} {i : Nat} {c : Call K} (hi : s.log[i]? = some c) (hp : c.pc = .enter) (ht : c.try_ = true) :
    ∃ t d, act ix s (.step i) = some t ∧ t.log[i]? = some d ∧ (d.pc = .held ∨ d.pc = .failed ∨ d.pc = .panic) := by
  have g : ∀ c', (s.log.set i c')[i]? = some c' := fun c' => get_set_self hi
  simp only [act, hi, Option.bind_some, step, hp, ht, if_true]
  cases hm : ix c.key with
  | none => exact ⟨_, _, rfl, g _, .inr (.inr rfl)⟩
  | some m =>
    cases hwr : c.write <;> simp only [Bool.false_eq_true, if_true, if_false]
    · cases (s.mu m).w
      · exact ⟨_, _, rfl, g _, .inl rfl⟩
      · exact ⟨_, _, rfl, g _, .inr (.inl rfl)⟩
    · split
      · exact ⟨_, _, rfl, g _, .inl rfl⟩
      · exact ⟨_, _, rfl, g _, .inr (.inl rfl)⟩

/-- A `Try` call fails only if another call has, or waits with priority for, the same mutex. -/
theorem try_fails {ix : K → Option Nat} {s t : St K} (h : Inv ix s) {i m : Nat} {c d : Call K} (hi : s.log[i]? = some c) (hp : c.pc = .enter)
    (hm : ix c.key = some m) (ht : act ix s (.step i) = some t) (hd : t.log[i]? = some d) (hf : d.pc = .failed) :
    ∃ (j : Nat) (e : Call K), j ≠ i ∧ s.log[j]? = some e ∧ ix e.key = some m ∧ (c.write = true ∨ e.write = true) ∧ (e.pc = .held ∨ e.pc = .announced) := by
  have g : ∀ c', (s.log.set i c')[i]? = some c' := fun c' => get_set_self hi
  have key : (s.mu m).w = true ∨ (c.write = true ∧ (s.mu m).r ≠ 0) := by
    refine Classical.byContradiction fun hx => ?_
    have hw : (s.mu m).w = false := by cases e : (s.mu m).w with | false => rfl | true => exact absurd (.inl e) hx
    simp only [act, hi, Option.bind_some, step, hp, hm, hw, Bool.false_eq_true, if_false, true_and] at ht
    cases hwr : c.write <;> simp only [hwr, Bool.false_eq_true, if_true, if_false] at ht
    · cases ht; simp only [St.upd, g] at hd; cases hd; cases hf
    · have hr : (s.mu m).r = 0 := Classical.byContradiction fun e => hx (.inr ⟨hwr, e⟩)
      simp only [hr, if_true] at ht
      split at ht <;> (cases ht; simp only [St.upd, g] at hd; cases hd; cases hf)
  rcases key with hw | ⟨hw, hr⟩
  · obtain ⟨j, e, hj, he, hew, hep⟩ := holder_of_w h hw
    refine ⟨j, e, fun x => ?_, hj, he, .inr hew, hep⟩
    subst x; rw [hi] at hj; cases hj
    rcases hep with x | x <;> rw [hp] at x <;> cases x
  · obtain ⟨j, e, hj, he, hew, hep⟩ := holder_of_r h hr
    refine ⟨j, e, fun x => ?_, hj, he, .inl hw, .inl hep⟩
    subst x; rw [hi] at hj; cases hj
    rw [hp] at hep; cases hep

/-- Whoever holds a lock can give it back. -/
theorem can_unlock {ix : K → Option Nat} {s : St K} (h : Inv ix s) {i : Nat} {c : Call K} (hi : s.log[i]? = some c) (hc : c.pc = .held) :
    ∃ t, act ix s (.unlock i) = some t ∧ t.log[i]? = some { c with pc := .released } := by
  obtain ⟨m, hm⟩ := h.hd i c hi (.inl hc)
  have g : ∀ c', (s.log.set i c')[i]? = some c' := fun c' => get_set_self hi
  simp only [act, hi, Option.bind_some, unlock, hc, hm]
  cases hw : c.write <;> simp only [Bool.false_eq_true, if_true, if_false]
  · have := cnt_pos (p := rd ix m) hi (by simp [rd, rPc, hc, hw, hm])
    have := h.r m
    rw [if_neg (by omega)]
    exact ⟨_, rfl, g _⟩
  · have := cnt_pos (p := wr ix m) hi (by simp [wr, wPc, hc, hw, hm])
    have hxw := h.w m
    cases e : (s.mu m).w with
    | false => rw [e] at hxw; simp only [Bool.toNat_false] at hxw; omega
    | true => exact ⟨_, rfl, g _⟩

/-! ### C59 -/

/-- C59. With a positive number of mutexes every key has one, and no call panics, in any execution; with any other number
every key panics. -/
theorem C59_keys (muxNum : BitVec 64) : (0 < muxNum.toInt → ∀ key, (numMutex muxNum key).isSome) ∧ (muxNum.toInt ≤ 0 → ∀ key, numMutex muxNum key = none) ∧
    (0 < muxNum.toInt → ∀ as s, Reached (numMutex muxNum) as s → ∀ c ∈ s.log, c.pc ≠ .panic) := by
  refine ⟨fun h key => by simp [numMutex, mutexAt_pos h], fun h key => mutexAt_nonpos h key, fun h as s hs c hc hp => ?_⟩
  obtain ⟨i, hi⟩ := List.getElem?_of_mem hc
  have := hs.inv.np i c hi hp
  rw [numMutex, mutexAt_pos h] at this
  cases this

/-- C59. In any execution two calls that hold the lock of the same key are the same call. -/
theorem C59_exclusive (muxNum : BitVec 64) (as : List (Act (BitVec 64))) (s : St (BitVec 64)) (h : Reached (numMutex muxNum) as s)
    (hall : ∀ c ∈ s.log, c.write = true) (i j : Nat) (c d : Call (BitVec 64)) (hi : s.log[i]? = some c) (hj : s.log[j]? = some d)
    (hk : c.key = d.key) (hc : c.pc = .held) (hd : d.pc = .held) : i = j := by
  obtain ⟨m, hm⟩ := h.inv.hd i c hi (.inl hc)
  exact exclusive h.inv hi hj hc hd hm (hk ▸ hm) (hall c (List.mem_of_getElem? hi))

/-- C59. A call waits, and `TryLock` fails, only because of another call with the same mutex; `TryLock` never waits; whoever
holds a lock can give it back. -/
theorem C59_progress (muxNum : BitVec 64) (hn : 0 < muxNum.toInt) (as : List (Act (BitVec 64))) (s : St (BitVec 64)) (h : Reached (numMutex muxNum) as s)
    (i : Nat) (c : Call (BitVec 64)) (hi : s.log[i]? = some c) :
    (Blocked (numMutex muxNum) s i → ∃ (j : Nat) (d : Call (BitVec 64)), j ≠ i ∧ s.log[j]? = some d ∧ numMutex muxNum d.key = numMutex muxNum c.key ∧
      (d.pc = .held ∨ d.pc = .announced)) ∧
    (c.pc = .held → ∃ t, act (numMutex muxNum) s (.unlock i) = some t ∧ t.log[i]? = some { c with pc := .released }) ∧
    (c.pc = .enter → c.try_ = true → ∃ t d, act (numMutex muxNum) s (.step i) = some t ∧ t.log[i]? = some d ∧
      (d.pc = .held ∨ (d.pc = .failed ∧ ∃ (j : Nat) (e : Call (BitVec 64)), j ≠ i ∧ s.log[j]? = some e ∧ numMutex muxNum e.key = numMutex muxNum c.key ∧
        (e.pc = .held ∨ e.pc = .announced)))) := by
  have hm : numMutex muxNum c.key = some (c.key.toNat % muxNum.toNat) := mutexAt_pos hn _
  refine ⟨fun hb => ?_, fun hc => can_unlock h.inv hi hc, fun hp ht => ?_⟩
  · obtain ⟨j, d, h1, h2, h3, _, h5⟩ := blocked_by h.inv hi hm hb
    exact ⟨j, d, h1, h2, h3.trans hm.symm, h5.imp id And.left⟩
  · obtain ⟨t, d, h1, h2, h3⟩ := try_step (ix := numMutex muxNum) hi hp ht
    refine ⟨t, d, h1, h2, ?_⟩
    rcases h3 with h3 | h3 | h3
    · exact .inl h3
    · obtain ⟨j, e, g1, g2, g3, _, g5⟩ := try_fails h.inv hi hp hm h1 h2 h3
      exact .inr ⟨h3, j, e, g1, g2, g3.trans hm.symm, g5⟩
    · have := inv_act h.inv h1
      exact absurd h3 ((C59_keys muxNum).2.2 hn (as ++ [.step i]) t (by
        unfold Reached at h ⊢
        have : ∀ (as : List (Act (BitVec 64))) (x : St (BitVec 64)), exec (numMutex muxNum) x as = some s → exec (numMutex muxNum) x (as ++ [.step i]) = some t := by
          intro as
          induction as with
          | nil => intro x hx; simp only [exec, Option.some.injEq] at hx; subst hx; simp [exec, h1]
          | cons a as ih =>
            intro x hx
            simp only [exec, List.cons_append] at hx ⊢
            cases ha : act (numMutex muxNum) x a with
            | none => simp [ha] at hx
            | some u => simp only [ha, Option.bind_some] at hx ⊢; exact ih u hx
        exact this as _ h) d (List.mem_of_getElem? h2))

/-- Key -1 with 8 mutexes is locked; another `Lock(-1)` waits, `TryLock(7)` fails, `Lock(0)` is got; then -1 is given back and
the second call gets it. -/
example : (exec (numMutex 8) (new _)
      [.start (-1) true false, .step 0, .step 0, .start (-1) true false, .start 7 true true, .step 2, .start 0 true false, .step 3, .step 3,
        .unlock 0, .step 1, .step 1]).map (fun s => s.log.map (·.pc)) = some [.released, .held, .failed, .held] := by decide +kernel

/-! ### C60 -/

/-- C60. In any execution, whatever the hash function: whoever holds the lock of a key for writing is the only holder of that key. -/
theorem C60_exclusive (hash : List UInt8 → BitVec 64) (muxNum : BitVec 64) (as : List (Act (List UInt8))) (s : St (List UInt8))
    (h : Reached (strMutex hash muxNum) as s) (i j : Nat) (c d : Call (List UInt8)) (hi : s.log[i]? = some c) (hj : s.log[j]? = some d)
    (hk : c.key = d.key) (hc : c.pc = .held) (hd : d.pc = .held) (hw : c.write = true) : i = j := by
  obtain ⟨m, hm⟩ := h.inv.hd i c hi (.inl hc)
  exact exclusive h.inv hi hj hc hd hm (hk ▸ hm) hw

/-- C60. Readers wait, and `TryRLock` fails, only because of writers (that hold the lock or have announced themselves); writers
only because of a holder or another writer; all with the same mutex. No call panics; whoever holds a lock can give it back. -/
theorem C60_progress (hash : List UInt8 → BitVec 64) (muxNum : BitVec 64) (hn : 0 < muxNum.toInt) (as : List (Act (List UInt8))) (s : St (List UInt8))
    (h : Reached (strMutex hash muxNum) as s) (i : Nat) (c : Call (List UInt8)) (hi : s.log[i]? = some c) :
    c.pc ≠ .panic ∧
    (Blocked (strMutex hash muxNum) s i → ∃ (j : Nat) (d : Call (List UInt8)), j ≠ i ∧ s.log[j]? = some d ∧
      strMutex hash muxNum d.key = strMutex hash muxNum c.key ∧ (c.write = true ∨ d.write = true) ∧ (d.pc = .held ∨ (d.pc = .announced ∧ d.write = true))) ∧
    (∀ t d, c.pc = .enter → act (strMutex hash muxNum) s (.step i) = some t → t.log[i]? = some d → d.pc = .failed →
      ∃ (j : Nat) (e : Call (List UInt8)), j ≠ i ∧ s.log[j]? = some e ∧ strMutex hash muxNum e.key = strMutex hash muxNum c.key ∧
        (c.write = true ∨ e.write = true) ∧ (e.pc = .held ∨ e.pc = .announced)) ∧
    (c.pc = .held → ∃ t, act (strMutex hash muxNum) s (.unlock i) = some t ∧ t.log[i]? = some { c with pc := .released }) := by
  have hm : strMutex hash muxNum c.key = some ((hash c.key).toNat % muxNum.toNat) := mutexAt_pos hn _
  refine ⟨fun hp => ?_, fun hb => ?_, fun t d hp ht hd hf => ?_, fun hc => can_unlock h.inv hi hc⟩
  · have := h.inv.np i c hi hp
    rw [hm] at this; cases this
  · obtain ⟨j, d, h1, h2, h3, h4, h5⟩ := blocked_by h.inv hi hm hb
    exact ⟨j, d, h1, h2, h3.trans hm.symm, h4, h5⟩
  · obtain ⟨j, e, g1, g2, g3, g4, g5⟩ := try_fails h.inv hi hp hm ht hd hf
    exact ⟨j, e, g1, g2, g3.trans hm.symm, g4, g5⟩

/-- Two readers hold the same key; a `TryLock` for it fails; a `Lock` announces itself and keeps the next reader out. -/
example : (exec (strMutex (fun k => BitVec.ofNat 64 k.length) 4) (new _)
      [.start [7] false false, .step 0, .start [7] false true, .step 1, .start [7] true true, .step 2, .start [7] true false, .step 3,
        .start [7] false true, .step 4, .unlock 0, .unlock 1, .step 3]).map (fun s => s.log.map (·.pc)) =
    some [.released, .released, .failed, .held, .failed] := by decide +kernel

/-! ### C90 -/

/-- C90, as stated: a `Lock` waits only if another call has the lock of the same key, or waits for it. -/
def C90_claim : Prop := ∀ (muxNum : BitVec 64), 0 < muxNum.toInt → ∀ as s, Reached (numMutex muxNum) as s →
  ∀ (i : Nat) (c : Call (BitVec 64)), s.log[i]? = some c → Blocked (numMutex muxNum) s i →
    ∃ (j : Nat) (d : Call (BitVec 64)), j ≠ i ∧ s.log[j]? = some d ∧ d.key = c.key

theorem two_keys {ix : K → Option Nat} {k1 k2 : K} {m : Nat} (h1 : ix k1 = some m) (h2 : ix k2 = some m) :
    ∃ s, Reached ix [.start k1 true false, .step 0, .step 0, .start k2 true false] s ∧
      s.log = [⟨k1, true, false, .held⟩, ⟨k2, true, false, .enter⟩] ∧ Blocked ix s 1 := by
  refine ⟨⟨fun n => if n = m then ⟨true, 0⟩ else {}, [⟨k1, true, false, .held⟩, ⟨k2, true, false, .enter⟩]⟩, ?_, ?_⟩
  · simp only [Reached, exec, act, new, step, h1, Option.bind_some, List.nil_append, List.getElem?_cons_zero, St.upd, if_true, Bool.false_eq_true, if_false,
      List.set_cons_zero, List.cons_append]
    congr 2
    funext n
    split <;> rfl
  · exact ⟨rfl, ⟨_, rfl, .inl rfl⟩, by simp [act, step, h2]⟩

/-- C90 is false, whatever the number of mutexes: a goroutine that holds the lock of 0 and asks for the lock of `muxNum` waits
for itself. -/
theorem C90_num (muxNum : BitVec 64) (hn : 0 < muxNum.toInt) : ∃ s, Reached (numMutex muxNum) [.start 0 true false, .step 0, .step 0, .start muxNum true false] s ∧
    s.log = [⟨0, true, false, .held⟩, ⟨muxNum, true, false, .enter⟩] ∧ Blocked (numMutex muxNum) s 1 := by
  refine two_keys (m := 0) ?_ ?_
  · rw [numMutex, mutexAt_pos hn]; simp
  · rw [numMutex, mutexAt_pos hn]; simp

theorem C90_claim_false : ¬ C90_claim := by
  intro h
  obtain ⟨s, hs, hl, hb⟩ := C90_num 64 (by decide)
  obtain ⟨j, d, hj, hd, hk⟩ := h 64 (by decide) _ s hs 1 ⟨64, true, false, .enter⟩ (by rw [hl]; rfl) hb
  rw [hl] at hd
  rcases j with _ | _ | j
  · simp at hd; subst hd; revert hk; decide
  · exact hj rfl
  · simp at hd

/-- C90 is false for `Strlock` as well, whatever the hash function and the number of mutexes. -/
theorem C90_str (hash : List UInt8 → BitVec 64) (muxNum : BitVec 64) (hn : 0 < muxNum.toInt) : ∃ k1 k2 s, k1 ≠ k2 ∧
    Reached (strMutex hash muxNum) [.start k1 true false, .step 0, .step 0, .start k2 true false] s ∧
    s.log = [⟨k1, true, false, .held⟩, ⟨k2, true, false, .enter⟩] ∧ Blocked (strMutex hash muxNum) s 1 := by
  have e := toInt_pos hn
  have hp : 0 < muxNum.toNat := by omega
  obtain ⟨a, b, hab, he⟩ := Finite.exists_ne_map_eq_of_infinite
    (fun n : Nat => (⟨(hash (List.replicate n 0)).toNat % muxNum.toNat, Nat.mod_lt _ hp⟩ : Fin muxNum.toNat))
  have he' := congrArg Fin.val he
  simp only at he'
  obtain ⟨s, h1, h2, h3⟩ := two_keys (ix := strMutex hash muxNum) (k1 := List.replicate a 0) (k2 := List.replicate b 0)
    (by rw [strMutex, mutexAt_pos hn]) (by rw [strMutex, mutexAt_pos hn, he'])
  refine ⟨_, _, s, fun hx => hab ?_, h1, h2, h3⟩
  have := congrArg List.length hx
  simpa using this

/-- C90, what holds: a `Lock` of key `k` waits only because of a key that is `k` modulo the number of mutexes. Missing: other
keys. -/
theorem C90_partial (muxNum : BitVec 64) (hn : 0 < muxNum.toInt) (as : List (Act (BitVec 64))) (s : St (BitVec 64)) (h : Reached (numMutex muxNum) as s)
    (i : Nat) (c : Call (BitVec 64)) (hi : s.log[i]? = some c) (hb : Blocked (numMutex muxNum) s i) :
    ∃ (j : Nat) (d : Call (BitVec 64)), j ≠ i ∧ s.log[j]? = some d ∧ d.key.toNat % muxNum.toNat = c.key.toNat % muxNum.toNat ∧ (d.pc = .held ∨ d.pc = .announced) := by
  obtain ⟨j, d, h1, h2, h3, h4⟩ := (C59_progress muxNum hn as s h i c hi).1 hb
  rw [numMutex, numMutex, mutexAt_pos hn, mutexAt_pos hn, Option.some.injEq] at h3
  exact ⟨j, d, h1, h2, h3, h4⟩

/-! ### C61 -/
/-- The calls that have the lock: `Lock` has returned nil, `Unlock` has not been called. -/
def holders (s : Limit.St) : Nat := s.log.countP (· == Limit.Pc.held)

/-- The calls of `Lock` that have returned nil. -/
def locked (s : Limit.St) : Nat := s.log.countP fun c => c == .held || c == .unlocking || c == .received || c == .released

/-- No call of `Lock` or `Unlock` is in flight. -/
def Quiet (s : Limit.St) : Prop := ∀ c ∈ s.log, c ≠ .select ∧ c ≠ .sent ∧ c ≠ .unlocking ∧ c ≠ .received

theorem held_le (limit : Nat) {s : Limit.St} (h : Limit.Inv limit s) : holders s ≤ s.ch := by
  rw [← h.ch]
  exact cnt_le _ fun c hc => by cases c <;> simp_all [Limit.inCh]

theorem quiet_ch (limit : Nat) {s : Limit.St} (h : Limit.Inv limit s) (hq : Quiet s) : s.ch = holders s := by
  rw [← h.ch]
  refine List.countP_congr fun c hc => ?_
  have := hq c hc
  cases c <;> simp_all [Limit.inCh]

theorem locked_eq (s : Limit.St) : locked s = s.log.countP Limit.counted :=
  List.countP_congr fun c _ => by cases c <;> simp [Limit.counted]

theorem split_counts (log : List Limit.Pc) : log.countP Limit.counted =
    log.countP (· == .held) + log.countP (· == .unlocking) + log.countP (· == .received) + log.countP Limit.counted' := by
  induction log with
  | nil => rfl
  | cons c log ih =>
    simp only [List.countP_cons, ih]
    cases c <;> simp [Limit.counted, Limit.counted'] <;> omega

/-- C61. In any execution at most `limit` calls have the lock. -/
theorem C61_limit (limit : Nat) (as : List Limit.Act) (s : Limit.St) (h : Limit.exec limit Limit.new as = some s) : holders s ≤ limit := by
  have := Limit.inv_exec (Limit.inv_new limit) h
  exact Nat.le_trans (held_le limit this) this.le

/-- C61. A call that has timed out holds nothing: when the calls that have the lock, or are about to have or to give it back,
are fewer than `limit`, a waiting `Lock` can get it; and only then. Whoever has it can give it back. -/
theorem C61_timeout (limit : Nat) (as : List Limit.Act) (s : Limit.St) (h : Limit.exec limit Limit.new as = some s) (i : Nat) :
    (s.log[i]? = some .select → ((Limit.act limit s (.step i)).isSome ↔
      s.log.countP (fun c => c == .sent || c == .held || c == .unlocking) < limit)) ∧
    (s.log[i]? = some .held → ∃ t u v, Limit.act limit s (.unlock i) = some t ∧ Limit.act limit t (.step i) = some u ∧
      Limit.act limit u (.step i) = some v ∧ v.log[i]? = some .released) := by
  have hv := Limit.inv_exec (Limit.inv_new limit) h
  have e : s.log.countP (fun c => c == .sent || c == .held || c == .unlocking) = s.ch := by
    rw [← hv.ch]
    exact List.countP_congr fun c _ => by cases c <;> simp [Limit.inCh]
  refine ⟨fun hi => ?_, fun hi => ?_⟩
  · rw [e]
    simp only [Limit.act, hi, Option.bind_some, Limit.step]
    split <;> simp_all
  · have hpos := cnt_pos (p := Limit.inCh) hi rfl
    rw [hv.ch] at hpos
    have hlt : i < s.log.length := (List.getElem?_eq_some_iff.1 hi).1
    refine ⟨⟨s.ch, s.count, s.count', s.log.set i .unlocking⟩, ⟨s.ch - 1, s.count, s.count', (s.log.set i .unlocking).set i .received⟩,
      ⟨s.ch - 1, s.count, s.count' + 1, ((s.log.set i .unlocking).set i .received).set i .released⟩, ?_, ?_, ?_, ?_⟩
    · simp [Limit.act, hi]
    · simp [Limit.act, Limit.step, hlt]; omega
    · simp [Limit.act, Limit.step, hlt]
    · simp [hlt]

/-- C61. When no call is in flight, `Cc` returns the number of holders and `LockCount` the number of successful locks (modulo
2^64). -/
theorem C61_counts (limit : Nat) (as : List Limit.Act) (s : Limit.St) (h : Limit.exec limit Limit.new as = some s) (hq : Quiet s) :
    Limit.exec limit s [.cc, .step s.log.length, .step s.log.length] =
      some { s with log := s.log ++ [.ccRet (BitVec.ofNat 64 (holders s))] } ∧
    Limit.lockCount s = BitVec.ofNat 64 (locked s) := by
  have hv := Limit.inv_exec (Limit.inv_new limit) h
  have hc := split_counts s.log
  have z1 : s.log.countP (· == Limit.Pc.unlocking) = 0 := List.countP_eq_zero.2 fun c hc => by have := hq c hc; simp [this.2.2.1]
  have z2 : s.log.countP (· == Limit.Pc.received) = 0 := List.countP_eq_zero.2 fun c hc => by have := hq c hc; simp [this.2.2.2]
  rw [z1, z2] at hc
  have hd : s.count - s.count' = BitVec.ofNat 64 (holders s) := by
    rw [hv.count, hv.count', hc]
    simp only [Nat.add_zero, BitVec.ofNat_add]
    rw [BitVec.add_sub_cancel]
    rfl
  refine ⟨?_, by rw [Limit.lockCount, hv.count, locked_eq]⟩
  simp [Limit.exec, Limit.act, Limit.step, hd]

/-- Two slots: two calls have the lock, the third times out, one gives the lock back, the fourth gets it. -/
example : Limit.exec 2 Limit.new [.lock, .lock, .lock, .step 0, .step 1, .step 1, .step 0, .timeout 2, .unlock 1, .step 1, .step 1, .lock, .step 3, .step 3] =
    some ⟨2, 3, 1, [.held, .released, .timedOut, .held]⟩ := by decide +kernel

/-! ### C91 -/

/-- C91, as stated: `Cc` always returns a number between 0 and the limit. -/
def C91_claim : Prop := ∀ (limit : Nat) (as : List Limit.Act) (s : Limit.St), 0 < limit → limit < 2 ^ 63 → Limit.exec limit Limit.new as = some s →
  ∀ v, Limit.Pc.ccRet v ∈ s.log → 0 ≤ v.toInt ∧ v.toInt ≤ limit

/-- C91 is false: with limit 1 `Cc` can return 2. -/
theorem C91_high : Limit.exec 1 Limit.new [.lock, .step 0, .step 0, .unlock 0, .step 0, .lock, .step 1, .step 1, .cc, .step 2, .step 2] =
    some ⟨1, 2, 0, [.received, .held, .ccRet 2]⟩ := by decide +kernel

/-- C91 is false: `Cc` can return -1. -/
theorem C91_low : Limit.exec 1 Limit.new [.cc, .step 0, .lock, .step 1, .step 1, .unlock 1, .step 1, .step 1, .step 0] =
    some ⟨0, 1, 1, [.ccRet (-1), .released]⟩ := by decide +kernel

theorem C91_claim_false : ¬ C91_claim := by
  intro h
  have := h 1 _ _ (by decide) (by decide) C91_low (-1) (by simp)
  revert this
  decide

/-- C91, what holds: at any moment the difference of the counters is the number of calls that have the lock plus the number of
`Unlock` calls in flight. Missing: `Cc` reads the counters one after the other. -/
theorem C91_partial (limit : Nat) (as : List Limit.Act) (s : Limit.St) (h : Limit.exec limit Limit.new as = some s) :
    s.count - s.count' = BitVec.ofNat 64 (holders s + s.log.countP (· == .unlocking) + s.log.countP (· == .received)) ∧
    holders s + s.log.countP (· == .unlocking) + s.log.countP (· == .received) ≤ limit + s.log.countP (· == .received) := by
  have hv := Limit.inv_exec (Limit.inv_new limit) h
  refine ⟨?_, ?_⟩
  · rw [hv.count, hv.count', split_counts s.log]
    rw [BitVec.ofNat_add, BitVec.add_sub_cancel]
    rfl
  · have : ∀ log : List Limit.Pc, log.countP (· == .held) + log.countP (· == .unlocking) ≤ log.countP Limit.inCh := by
      intro log
      induction log with
      | nil => exact Nat.le_refl _
      | cons c log ih =>
        simp only [List.countP_cons]
        cases c <;> simp [Limit.inCh] <;> omega
    have h1 := this s.log
    have h2 := hv.ch
    have h3 := hv.le
    unfold holders
    omega

end Gofer.Props.Lock
