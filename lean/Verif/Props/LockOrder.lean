import Verif.Props.Lock

/-! # Several locks at a time: property C214 -/
namespace Gofer.Props.LockOrder
open Gofer.Lock Gofer.Props.Lock

variable {K : Type}

/-- Call `i` asks for a lock and has not got it yet. -/
def Waiting (s : St K) (i : Nat) : Prop := ∃ c, s.log[i]? = some c ∧ (c.pc = .enter ∨ c.pc = .announced)

/-- Call `j` holds the lock that call `i` asks for (its mutex). -/
def InWay (ix : K → Option Nat) (s : St K) (i j : Nat) : Prop :=
  ∃ c d, s.log[i]? = some c ∧ s.log[j]? = some d ∧ d.pc = .held ∧ ix d.key = ix c.key

/-- Call `j` is a `Lock` for the mutex that call `i` asks for, and waits for readers. -/
def Ahead (ix : K → Option Nat) (s : St K) (i j : Nat) : Prop :=
  ∃ c d, s.log[i]? = some c ∧ s.log[j]? = some d ∧ d.pc = .announced ∧ c.pc = .enter ∧ ix d.key = ix c.key

/-- Call `i` is not part of a deadlock; `own` gives the goroutine of a call. It can get on; or the lock it asks for is held by a goroutine that
waits for nothing, or by one that waits with a call that is not part of a deadlock; or such a call is ahead of it. -/
inductive Alive (ix : K → Option Nat) (own : Nat → Nat) (s : St K) : Nat → Prop
  | step {i} : act ix s (.step i) ≠ none → Alive ix own s i
  | free {i j} : InWay ix s i j → (∀ k, own k = own j → ¬ Waiting s k) → Alive ix own s i
  | next {i j k} : InWay ix s i j → own k = own j → Waiting s k → Alive ix own s k → Alive ix own s i
  | ahead {i j} : Ahead ix s i j → Alive ix own s j → Alive ix own s i

/-- Goroutines ask only for locks that are greater than all that they hold. -/
def Ascending (lt : K → K → Prop) (own : Nat → Nat) (s : St K) : Prop :=
  ∀ (i j : Nat) (c d : Call K), s.log[i]? = some c → (c.pc = .enter ∨ c.pc = .announced) → s.log[j]? = some d → d.pc = .held → own i = own j → lt d.key c.key

/-- C214 at full strength: goroutines that take locks in ascending order of the keys do not deadlock. -/
def C214_claim : Prop := ∀ (muxNum : BitVec 64), 0 < muxNum.toInt → ∀ (as : List (Act (BitVec 64))) (s : St (BitVec 64)) (own : Nat → Nat),
  Reached (numMutex muxNum) as s → Ascending (fun a b => a.toInt < b.toInt) own s → ∀ i, Waiting s i → Alive (numMutex muxNum) own s i

/-- Nor does it help to take two locks only: a goroutine alone in the world waits for itself for ever, whatever the number of mutexes. -/
theorem C214_self (muxNum : BitVec 64) (hn : 0 < muxNum.toInt) : ∃ s, Reached (numMutex muxNum)
      [.start 0 true false, .step 0, .step 0, .start muxNum true false] s ∧ Ascending (fun a b => a.toInt < b.toInt) (fun _ => 0) s ∧
    Waiting s 1 ∧ ¬ Alive (numMutex muxNum) (fun _ => 0) s 1 := by
  obtain ⟨s, h1, h2, h3⟩ := C90_num muxNum hn
  have h0 : s.log[0]? = some ⟨0, true, false, .held⟩ := by rw [h2]; rfl
  have h01 : s.log[1]? = some ⟨muxNum, true, false, .enter⟩ := by rw [h2]; rfl
  have hbig : ∀ i c, s.log[i]? = some c → (i = 0 ∧ c = ⟨0, true, false, .held⟩) ∨ (i = 1 ∧ c = ⟨muxNum, true, false, .enter⟩) := by
    intro i c hi
    rw [h2] at hi
    rcases i with _ | _ | i
    · exact .inl ⟨rfl, by simpa using hi.symm⟩
    · exact .inr ⟨rfl, by simpa using hi.symm⟩
    · simp at hi
  have hw : ∀ i, Waiting s i → i = 1 := by
    rintro i ⟨c, hc, hp⟩
    rcases hbig i c hc with ⟨_, rfl⟩ | ⟨h, _⟩
    · simp at hp
    · exact h
  refine ⟨s, h1, ?_, ⟨_, h01, .inl rfl⟩, ?_⟩
  · intro i j c d hi hp hj hd _
    rcases hbig i c hi with ⟨_, rfl⟩ | ⟨_, rfl⟩
    · simp at hp
    · rcases hbig j d hj with ⟨_, rfl⟩ | ⟨_, rfl⟩
      · simpa using hn
      · simp at hd
  · intro ha
    suffices ∀ i, Alive (numMutex muxNum) (fun _ => 0) s i → i = 1 → False from this 1 ha rfl
    intro i ha
    induction ha with
    | step h => rintro rfl; exact h h3.2
    | free hi hf => rintro rfl; exact hf 1 rfl ⟨_, h01, .inl rfl⟩
    | next hi ho hk _ ih => rintro rfl; exact ih (hw _ hk)
    | ahead hi _ ih =>
      rintro rfl
      obtain ⟨c, d, _, hj, hd, _⟩ := hi
      rcases hbig _ d hj with ⟨_, rfl⟩ | ⟨_, rfl⟩ <;> simp at hd

theorem C214_claim_false : ¬ C214_claim := by
  intro h
  obtain ⟨s, h1, h2, h3, h4⟩ := C214_self 64 (by decide)
  exact h4 (h 64 (by decide) _ s _ h1 h2 1 h3)

/-- What keeps a waiting call from getting on. -/
theorem held_up {ix : K → Option Nat} {s : St K} (h : Inv ix s) {i m : Nat} {c : Call K} (hi : s.log[i]? = some c) (hm : ix c.key = some m)
    (hb : Blocked ix s i) : (∃ j, InWay ix s i j) ∨ (c.pc = .enter ∧ ∃ (j : Nat) (d : Call K), s.log[j]? = some d ∧ d.pc = .announced ∧ ix d.key = some m) := by
  obtain ⟨j, d, _, hj, hd, hw, hp⟩ := blocked_by h hi hm hb
  rcases hp with hp | ⟨hp, hdw⟩
  · exact .inl ⟨j, c, d, hi, hj, hp, hd.trans hm.symm⟩
  · obtain ⟨⟨c', hc', hpc⟩, hn⟩ := hb
    rw [hi] at hc'
    cases hc'
    rcases hpc with hpc | hpc
    · exact .inr ⟨hpc, j, d, hj, hp, hd⟩
    · simp only [act, hi, Option.bind_some, step, hm, hpc] at hn
      have hr : (s.mu m).r ≠ 0 := fun e => by simp [e] at hn
      obtain ⟨j, d, hj, hd, hdw, hdp⟩ := holder_of_r h hr
      exact .inl ⟨j, c, d, hi, hj, hdp, hd.trans hm.symm⟩

/-- Ascending mutexes keep deadlocks away. -/
theorem ascending_alive {ix : K → Option Nat} {s : St K} (h : Inv ix s) (own : Nat → Nat) (N : Nat) (hN : ∀ k, ∃ m, ix k = some m ∧ m < N)
    (ha : Ascending (fun a b => (ix a).getD 0 < (ix b).getD 0) own s) : ∀ i, Waiting s i → Alive ix own s i := by
  suffices ∀ n i c m, s.log[i]? = some c → (c.pc = .enter ∨ c.pc = .announced) → ix c.key = some m →
      2 * (N - m) + (if c.pc = .enter then 1 else 0) ≤ n → Alive ix own s i by
    rintro i ⟨c, hi, hp⟩
    obtain ⟨m, hm, _⟩ := hN c.key
    exact this _ i c m hi hp hm (Nat.le_refl _)
  intro n
  induction n with
  | zero =>
    intro i c m hi hp hm hle
    obtain ⟨m', hm', hlt⟩ := hN c.key
    rw [hm] at hm'
    cases hm'
    omega
  | succ n ih =>
    intro i c m hi hp hm hle
    obtain ⟨m', hm', hlt⟩ := hN c.key
    rw [hm] at hm'
    cases hm'
    by_cases hs : act ix s (.step i) = none
    · rcases held_up h hi hm ⟨⟨c, hi, hp⟩, hs⟩ with ⟨j, c', d, hc', hj, hd, he⟩ | ⟨hpe, j, d, hj, hd, hk⟩
      · rw [hi] at hc'
        cases hc'
        have hin : InWay ix s i j := ⟨c, d, hi, hj, hd, he⟩
        by_cases hf : ∀ k, own k = own j → ¬ Waiting s k
        · exact .free hin hf
        · have ⟨k, hk⟩ := Classical.not_forall.1 hf
          have ⟨ho, hw⟩ := Classical.not_imp.1 hk
          have hw := Classical.not_not.1 hw
          have hw' := hw
          obtain ⟨ck, hck, hpk⟩ := hw'
          obtain ⟨mk, hmk, _⟩ := hN ck.key
          have hlt' := ha k j ck d hck hpk hj hd ho
          simp only [he, hm, hmk, Option.getD_some] at hlt'
          refine .next hin ho hw (ih k ck mk hck hpk hmk ?_)
          split at hle <;> split <;> omega
      · refine .ahead ⟨c, d, hi, hj, hd, hpe, hk.trans hm.symm⟩ (ih j d m hj (.inr hd) hk ?_)
        rw [if_pos hpe] at hle
        rw [if_neg (by rw [hd]; decide)]
        omega
    · exact .step hs

/-- C214, as far as it holds, `Numlock`: with any number of goroutines, none deadlocks if they take locks in ascending order of the remainder
of the key, as an unsigned number, by the number of mutexes. Missing: other orders, as that of the keys. -/
theorem C214_num_partial (muxNum : BitVec 64) (hn : 0 < muxNum.toInt) (as : List (Act (BitVec 64))) (s : St (BitVec 64)) (own : Nat → Nat)
    (h : Reached (numMutex muxNum) as s) (ha : Ascending (fun a b => a.toNat % muxNum.toNat < b.toNat % muxNum.toNat) own s) :
    ∀ i, Waiting s i → Alive (numMutex muxNum) own s i := by
  have e := toInt_pos hn
  have hm : ∀ k, numMutex muxNum k = some (k.toNat % muxNum.toNat) := fun k => mutexAt_pos hn _
  refine ascending_alive h.inv own muxNum.toNat (fun k => ⟨_, hm k, Nat.mod_lt _ (by omega)⟩) ?_
  intro i j c d hi hp hj hd ho
  simp only [hm, Option.getD_some]
  exact ha i j c d hi hp hj hd ho

/-- C214, as far as it holds, `Strlock`: the same for the remainder of the hash of the key, for readers and writers. -/
theorem C214_str_partial (hash : List UInt8 → BitVec 64) (muxNum : BitVec 64) (hn : 0 < muxNum.toInt) (as : List (Act (List UInt8)))
    (s : St (List UInt8)) (own : Nat → Nat) (h : Reached (strMutex hash muxNum) as s)
    (ha : Ascending (fun a b => (hash a).toNat % muxNum.toNat < (hash b).toNat % muxNum.toNat) own s) :
    ∀ i, Waiting s i → Alive (strMutex hash muxNum) own s i := by
  have e := toInt_pos hn
  have hm : ∀ k, strMutex hash muxNum k = some ((hash k).toNat % muxNum.toNat) := fun k => mutexAt_pos hn _
  refine ascending_alive h.inv own muxNum.toNat (fun k => ⟨_, hm k, Nat.mod_lt _ (by omega)⟩) ?_
  intro i j c d hi hp hj hd ho
  simp only [hm, Option.getD_some]
  exact ha i j c d hi hp hj hd ho

/-- C214, readers: whoever holds the lock of a key for reading and asks for it, for reading, once more, deadlocks with a `Lock` that came in
between; so it is for every key, hash function and number of mutexes. -/
theorem C214_reader_again (hash : List UInt8 → BitVec 64) (muxNum : BitVec 64) (hn : 0 < muxNum.toInt) (k : List UInt8) :
    ∃ s, Reached (strMutex hash muxNum) [.start k false false, .step 0, .start k true false, .step 1, .start k false false] s ∧
      Waiting s 1 ∧ Waiting s 2 ∧ ¬ Alive (strMutex hash muxNum) (fun i => i % 2) s 1 ∧ ¬ Alive (strMutex hash muxNum) (fun i => i % 2) s 2 := by
  have hm : strMutex hash muxNum k = some ((hash k).toNat % muxNum.toNat) := mutexAt_pos hn _
  generalize hmm : (hash k).toNat % muxNum.toNat = m at hm
  let s : St (List UInt8) := ⟨fun n => if n = m then ⟨true, 1⟩ else {}, [⟨k, false, false, .held⟩, ⟨k, true, false, .announced⟩, ⟨k, false, false, .enter⟩]⟩
  have hr : Reached (strMutex hash muxNum) [.start k false false, .step 0, .start k true false, .step 1, .start k false false] s := by
    simp only [Reached, exec, act, new, step, hm, Option.bind_some, List.nil_append, List.getElem?_cons_zero, St.upd, if_true, Bool.false_eq_true, if_false,
      List.set_cons_zero, List.cons_append, List.getElem?_cons_succ, List.set_cons_succ]
    congr 2
    funext n
    split <;> rfl
  have b1 : act (strMutex hash muxNum) s (.step 1) = none := by simp [act, step, hm, s]
  have b2 : act (strMutex hash muxNum) s (.step 2) = none := by simp [act, step, hm, s]
  have w1 : Waiting s 1 := ⟨_, rfl, .inr rfl⟩
  have w2 : Waiting s 2 := ⟨_, rfl, .inl rfl⟩
  have hw : ∀ i, Waiting s i → i = 1 ∨ i = 2 := by
    rintro i ⟨c, hc, hp⟩
    rcases i with _ | _ | _ | i
    · simp [s] at hc
      subst hc
      simp at hp
    · exact .inl rfl
    · exact .inr rfl
    · simp [s] at hc
  have key : ∀ i, Alive (strMutex hash muxNum) (fun i => i % 2) s i → i = 1 ∨ i = 2 → False := by
    intro i ha
    induction ha with
    | step h =>
      rintro (rfl | rfl)
      · exact h b1
      · exact h b2
    | @free i j hi hf =>
      intro _
      obtain ⟨c, d, _, hj, hd, _⟩ := hi
      rcases j with _ | _ | _ | j
      · exact hf 2 rfl w2
      · simp [s] at hj; subst hj; simp at hd
      · simp [s] at hj; subst hj; simp at hd
      · simp [s] at hj
    | next _ _ hk _ ih => exact fun _ => ih (hw _ hk)
    | @ahead i j hi _ ih =>
      intro _
      obtain ⟨c, d, _, hj, hd, _⟩ := hi
      exact ih (hw j ⟨d, hj, .inr hd⟩)
  exact ⟨s, hr, w1, w2, fun h => key 1 h (.inl rfl), fun h => key 2 h (.inr rfl)⟩

-- Three mutexes, two goroutines: the first holds 1 and asks for 2, the second holds 2 and waits for nothing.
example : ∃ s, Reached (numMutex 3) [.start 1 true false, .step 0, .step 0, .start 2 true false, .step 1, .step 1, .start 2 true false] s ∧
    Ascending (fun a b => a.toNat % 3 < b.toNat % 3) (fun i => i % 2) s ∧ Waiting s 2 ∧ Blocked (numMutex 3) s 2 := by
  have h : (exec (numMutex 3) (new _) [.start 1 true false, .step 0, .step 0, .start 2 true false, .step 1, .step 1, .start 2 true false]).map
      (fun s => (s.log, (act (numMutex 3) s (.step 2)).isNone)) =
      some ([⟨1, true, false, .held⟩, ⟨2, true, false, .held⟩, ⟨2, true, false, .enter⟩], true) := by decide +kernel
  obtain ⟨s, hs, he⟩ := Option.map_eq_some_iff.1 h
  obtain ⟨hl, hb⟩ := Prod.mk.inj he
  refine ⟨s, hs, ?_, ⟨_, by rw [hl]; rfl, .inl rfl⟩, ⟨_, by rw [hl]; rfl, .inl rfl⟩, by simpa using hb⟩
  intro i j c d hi hp hj hd ho
  rw [hl] at hi hj
  rcases i with _ | _ | _ | i
  · simp at hi; subst hi; simp at hp
  · simp at hi; subst hi; simp at hp
  · simp at hi
    subst hi
    rcases j with _ | _ | _ | j
    · simp at hj; subst hj; decide
    · simp at ho
    · simp at hj; subst hj; simp at hd
    · simp at hj
  · simp at hi

end Gofer.Props.LockOrder
