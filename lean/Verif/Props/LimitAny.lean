import Verif.Proof.LimitAny
/-! # `LimitLock` when anybody may call `Unlock`: properties C251, C252 -/
namespace Gofer.Props.LimitAny
open Gofer.LimitAny Gofer.Count

/-- The goroutines that have the lock: `Lock` has returned nil and they have not called `Unlock` for it. -/
def holders (s : St) : Nat := s.log.countP (· == Pc.held)

/-- The calls of `Unlock` by goroutines without the lock that have taken something from the channel. -/
def stolen (s : St) : Nat := s.log.countP fun c => c == .received false || c == .returned false

/-- The calls of `Lock` that have got the lock, those that are about to return included. -/
def got (s : St) : Nat := s.log.countP fun c => c == .sent || c == .held || c == .over

/-- The calls of `Unlock` that have gone through, those that are about to return included. -/
def through (s : St) : Nat := s.log.countP fun c => c == .received true || c == .received false || c == .returned true || c == .returned false

theorem got_eq (s : St) : got s = s.log.countP took := List.countP_congr fun c _ => by cases c <;> simp [took]
theorem through_eq (s : St) : through s = s.log.countP gave := List.countP_congr fun c _ => by
  cases c with
  | received o => cases o <;> simp [gave]
  | returned o => cases o <;> simp [gave]
  | _ => simp [gave]

theorem split_took (l : List Pc) : l.countP (· == Pc.held) + l.countP isOver ≤ l.countP took := by
  induction l with
  | nil => simp
  | cons c l ih =>
    simp only [List.countP_cons]
    cases c <;> simp [isOver, took] <;> omega

theorem split_gave (l : List Pc) : l.countP gave ≤ l.countP own + l.countP fun c => c == .received false || c == .returned false := by
  induction l with
  | nil => simp
  | cons c l ih =>
    simp only [List.countP_cons]
    cases c with
    | received o => cases o <;> simp [own, gave] <;> omega
    | returned o => cases o <;> simp [own, gave] <;> omega
    | unlock o => cases o <;> simp [own, gave] <;> omega
    | _ => simp [own, gave] <;> omega

/-! ## C251: how many have the lock -/

/-- **C251, the claim**: at most `limit` goroutines have the lock, whoever calls `Unlock`. -/
def C251_claim : Prop := ∀ (limit : Nat) (as : List Act) (s : St), exec limit new as = some s → holders s ≤ limit

/-- Limit 1: the first has the lock, the second times out and calls `Unlock` all the same (`defer`), the third gets the lock. -/
theorem C251_claim_false : ¬ C251_claim := by
  intro h
  have := h 1 [.lock, .step 0, .step 0, .lock, .timeout 1, .surplus, .step 2, .step 2, .lock, .step 3, .step 3]
    ⟨1, 2, 1, [.held, .timedOut, .returned false, .held]⟩ (by decide +kernel)
  revert this
  decide

/-- **C251, the part that holds**: every `Unlock` of a goroutine without the lock lets in at most one more. Without such calls there are never more than `limit`: also if
the goroutine that calls `Unlock` is not the one that called `Lock`. -/
theorem C251_holders_partial {limit : Nat} {as : List Act} {s : St} (h : exec limit new as = some s) : holders s ≤ limit + stolen s := by
  have hv := inv_exec (inv_new limit) h
  have h1 := split_took s.log
  have h2 := split_gave s.log
  have := hv.le
  have := hv.ch
  have := hv.own
  unfold holders stolen
  omega

theorem stolen_zero {limit : Nat} {as : List Act} {s : St} (h : exec limit new as = some s) (hs : Act.surplus ∉ as) : ∀ c ∈ s.log, c ≠ .unlock false ∧ c ≠ .received false ∧ c ≠ .returned false := by
  suffices ∀ (u : St), (∀ c ∈ u.log, c ≠ .unlock false ∧ c ≠ .received false ∧ c ≠ .returned false) → exec limit u as = some s →
      ∀ c ∈ s.log, c ≠ .unlock false ∧ c ≠ .received false ∧ c ≠ .returned false from this new (by simp [new]) h
  clear h
  induction as with
  | nil =>
    intro u hu e
    simp only [exec, Option.some.injEq] at e
    rw [← e]
    exact hu
  | cons a as ih =>
    intro u hu e
    simp only [exec] at e
    cases ha : act limit u a with
    | none => simp [ha] at e
    | some t =>
      simp only [ha, Option.bind_some] at e
      refine ih (fun hm => hs (List.mem_cons_of_mem _ hm)) t ?_ e
      have set : ∀ {l : List Pc} (i : Nat) (c : Pc), (∀ c ∈ l, c ≠ .unlock false ∧ c ≠ .received false ∧ c ≠ .returned false) → (c ≠ .unlock false ∧ c ≠ .received false ∧ c ≠ .returned false) →
          ∀ d ∈ l.set i c, d ≠ .unlock false ∧ d ≠ .received false ∧ d ≠ .returned false := by
        intro l i c hl hc d hd
        rcases List.mem_or_eq_of_mem_set hd with hd | rfl
        · exact hl d hd
        · exact hc
      have app : ∀ {l : List Pc} (c : Pc), (∀ c ∈ l, c ≠ .unlock false ∧ c ≠ .received false ∧ c ≠ .returned false) → (c ≠ .unlock false ∧ c ≠ .received false ∧ c ≠ .returned false) →
          ∀ d ∈ l ++ [c], d ≠ .unlock false ∧ d ≠ .received false ∧ d ≠ .returned false := by
        intro l c hl hc d hd
        rcases List.mem_append.1 hd with hd | hd
        · exact hl d hd
        · rw [List.mem_singleton.1 hd]; exact hc
      cases a with
      | surplus => exact absurd (List.mem_cons_self) hs
      | lock =>
        simp only [act, Option.some.injEq] at ha
        subst ha
        exact app _ hu (by simp)
      | unlock i =>
        simp only [act] at ha
        split at ha
        · simp only [Option.some.injEq] at ha
          subst ha
          exact app _ (set _ _ hu (by simp)) (by simp)
        · simp at ha
      | timeout i =>
        simp only [act] at ha
        split at ha
        · simp only [Option.some.injEq] at ha
          subst ha
          exact set _ _ hu (by simp)
        · simp at ha
      | meet i j =>
        simp only [act] at ha
        split at ha
        · cases hj : u.log[j]? with
          | none => simp [hj] at ha
          | some c =>
            simp only [hj, Option.bind_some] at ha
            have hc := hu c (List.mem_of_getElem? hj)
            cases c with
            | unlock o =>
              cases o with
              | false => exact absurd rfl hc.1
              | true =>
                simp only [meet, Option.some.injEq] at ha
                subst ha
                exact set _ _ (set _ _ hu (by simp)) (by simp)
            | _ => simp [meet] at ha
        · simp at ha
      | step i =>
        simp only [act] at ha
        cases hi : u.log[i]? with
        | none => simp [hi] at ha
        | some c =>
          simp only [hi, Option.bind_some] at ha
          have hc := hu c (List.mem_of_getElem? hi)
          cases c with
          | select =>
            simp only [step] at ha
            split at ha
            · simp only [Option.some.injEq] at ha
              subst ha
              exact set _ _ hu (by simp)
            · simp at ha
          | sent =>
            simp only [step, Option.some.injEq] at ha
            subst ha
            exact set _ _ hu (by simp)
          | unlock o =>
            cases o with
            | false => exact absurd rfl hc.1
            | true =>
              simp only [step] at ha
              split at ha
              · simp only [Option.some.injEq] at ha
                subst ha
                exact set _ _ hu (by simp)
              · simp at ha
          | received o =>
            cases o with
            | false => exact absurd rfl hc.2.1
            | true =>
              simp only [step, Option.some.injEq] at ha
              subst ha
              exact set _ _ hu (by simp)
          | held => simp [step] at ha
          | over => simp [step] at ha
          | timedOut => simp [step] at ha
          | returned o => simp [step] at ha

/-- **C251, without such calls**: at most `limit`, and a `NewLimitLock(0)` lets nobody in. -/
theorem C251_limit_partial {limit : Nat} {as : List Act} {s : St} (h : exec limit new as = some s) (hs : Act.surplus ∉ as) : holders s ≤ limit := by
  have h1 := C251_holders_partial h
  have h2 : stolen s = 0 := List.countP_eq_zero.2 fun c hc => by
    have := stolen_zero h hs c hc
    simp [this.2.1, this.2.2]
  omega

/-- Limit 2, one surplus `Unlock`: three have the lock. -/
example : (exec 2 new [.lock, .lock, .step 0, .step 0, .step 1, .step 1, .surplus, .step 2, .lock, .step 3, .step 3]).map (fun s => (holders s, stolen s)) = some (3, 1) := by
  decide +kernel
/-- Limit 0: a `Lock` and an `Unlock` that nobody owes meet. -/
example : (exec 0 new [.lock, .surplus, .meet 0 1, .step 0, .step 1]).map (fun s => (holders s, stolen s)) = some (1, 1) := by decide +kernel

/-! ## C252: which calls of `Unlock` return -/

/-- **C252**: `Unlock` never panics; calls of it that go through are never more than the calls of `Lock` that got the lock, and a call that waits can go through exactly if it
would not break this. So an `Unlock` before any `Lock` waits. -/
theorem C252_unlock {limit : Nat} {as : List Act} {s : St} (h : exec limit new as = some s) :
    through s ≤ got s ∧ got s ≤ through s + limit ∧ ∀ (i : Nat) (own : Bool), s.log[i]? = some (.unlock own) → ((act limit s (.step i)).isSome ↔ through s < got s) := by
  have hv := inv_exec (inv_new limit) h
  have := hv.le
  have := hv.ch
  rw [through_eq, got_eq]
  refine ⟨by omega, by omega, fun i own hi => ?_⟩
  simp only [act, hi, Option.bind_some, step]
  split
  · simp; omega
  · simp; omega

/-- **C252, the claim**: the `Unlock` of a goroutine that has the lock never waits. -/
def C252_claim : Prop := ∀ (limit : Nat) (as : List Act) (s : St) (i : Nat), exec limit new as = some s → s.log[i]? = some (.unlock true) → (act limit s (.step i)).isSome

/-- After a surplus `Unlock` it does: until somebody else calls `Lock`, whose lock it then takes. -/
theorem C252_claim_false : ¬ C252_claim := by
  intro h
  have := h 1 [.lock, .step 0, .step 0, .surplus, .step 1, .step 1, .unlock 0] ⟨0, 1, 1, [.over, .returned false, .unlock true]⟩ 2 (by decide +kernel) (by decide)
  revert this
  decide

/-- **C252, the part that holds**: without surplus calls it never waits. -/
theorem C252_own_partial {limit : Nat} {as : List Act} {s : St} {i : Nat} (h : exec limit new as = some s) (hs : Act.surplus ∉ as)
    (hi : s.log[i]? = some (.unlock true)) : (act limit s (.step i)).isSome := by
  rw [(C252_unlock h).2.2 i true hi, through_eq, got_eq]
  have hv := inv_exec (inv_new limit) h
  have h1 := split_took s.log
  have h2 : s.log.countP gave + 1 ≤ s.log.countP own := by
    have z := stolen_zero h hs
    refine lt_cnt hi (fun a ha hg => ?_) rfl rfl
    have := z a ha
    cases a with
    | received o => cases o <;> simp_all [own]
    | returned o => cases o <;> simp_all [own]
    | _ => simp [gave] at hg
  have := hv.own
  omega

/-- **C252, the counter**: while no call runs, `Cc` is the number of `Lock`s that returned nil less that of `Unlock`s that returned: with surplus calls it is less than the
number of goroutines that have the lock. -/
theorem C252_cc {limit : Nat} {as : List Act} {s : St} (h : exec limit new as = some s) (hq : ∀ c ∈ s.log, c ≠ .sent ∧ c ≠ .received true ∧ c ≠ .received false) :
    cc s = BitVec.ofNat 64 (got s - through s) := by
  have hv := inv_exec (inv_new limit) h
  have e1 : s.log.countP counted = got s := List.countP_congr fun c hc => by
    have := hq c hc
    cases c <;> simp_all [counted]
  have e2 : s.log.countP counted' = through s := List.countP_congr fun c hc => by
    have := hq c hc
    cases c with
    | received o => cases o <;> simp_all [counted']
    | returned o => cases o <;> simp_all [counted']
    | _ => simp_all [counted']
  have le := (C252_unlock h).1
  rw [cc, hv.count, hv.count', e1, e2]
  obtain ⟨k, hk⟩ := Nat.exists_eq_add_of_le le
  rw [hk, Nat.add_sub_cancel_left, BitVec.ofNat_add, BitVec.add_comm, BitVec.add_sub_cancel]

example : (exec 2 new [.lock, .lock, .step 0, .step 0, .step 1, .step 1, .surplus, .step 2, .step 2]).map (fun s => (holders s, cc s)) = some (2, 1) := by decide +kernel
/-- Handed over: the first `Lock` is unlocked, whoever does it, and the next call gets the lock. -/
example : (exec 1 new [.lock, .lock, .step 0, .step 0, .unlock 0, .step 2, .step 1, .step 2, .step 1]).map (fun s => (holders s, s.ch)) = some (1, 1) := by decide +kernel

end Gofer.Props.LimitAny
