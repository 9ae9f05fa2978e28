import Verif.Model.Lock
import Verif.Proof.AMap
import Verif.Proof.Count

/-! # Locks: helper lemmas -/
namespace Gofer.Lock
open Gofer.Count

theorem load_range (n : Nat) (hn : n ≤ 2 ^ 64) (k : BitVec 64) :
    ((List.range n).foldl (fun (m : AMap (BitVec 64) Nat) i => m.store (BitVec.ofNat 64 i) i) AMap.empty).load k =
      if k.toNat < n then some k.toNat else none := by
  induction n with
  | zero => simp
  | succ n ih =>
    rw [List.range_succ, List.foldl_append, List.foldl_cons, List.foldl_nil, AMap.load_store, ih (by omega)]
    have e : k = BitVec.ofNat 64 n ↔ k.toNat = n := by
      rw [← BitVec.toNat_inj, BitVec.toNat_ofNat, Nat.mod_eq_of_lt (by omega)]
    by_cases h : k.toNat = n
    · rw [if_pos (e.2 h), if_pos (by omega), h]
    · rw [if_neg (fun x => h (e.1 x))]
      by_cases h2 : k.toNat < n
      · rw [if_pos h2, if_pos (by omega)]
      · rw [if_neg h2, if_neg (by omega)]

theorem newTable_load (muxNum k : BitVec 64) : (newTable muxNum).load k = if k.toNat < muxNum.toInt.toNat then some k.toNat else none := by
  refine load_range _ ?_ k
  have : muxNum.toInt < 2 ^ 63 := BitVec.toInt_lt
  omega

theorem toInt_pos {x : BitVec 64} (h : 0 < x.toInt) : x.toInt.toNat = x.toNat := by
  have h1 := x.isLt
  have h2 := BitVec.toInt_eq_toNat_cond x
  split at h2 <;> omega

theorem mutexAt_pos {muxNum : BitVec 64} (h : 0 < muxNum.toInt) (u : BitVec 64) : mutexAt muxNum u = some (u.toNat % muxNum.toNat) := by
  have e := toInt_pos h
  have hp : 0 < muxNum.toNat := by omega
  have h0 : muxNum ≠ 0 := fun hx => by subst hx; exact absurd h (by decide)
  rw [mutexAt, if_neg h0, newTable_load, e]
  have : (u.umod muxNum).toNat = u.toNat % muxNum.toNat := BitVec.toNat_umod
  rw [this, if_pos (Nat.mod_lt _ hp)]

theorem mutexAt_nonpos {muxNum : BitVec 64} (h : muxNum.toInt ≤ 0) (u : BitVec 64) : mutexAt muxNum u = none := by
  unfold mutexAt
  split
  · rfl
  · rw [newTable_load, if_neg (by omega)]

variable {K : Type}

/-- Has announced itself or holds the lock, for writing. -/
def wPc (c : Call K) : Bool := match c.pc with | .announced | .held => c.write | _ => false
/-- Holds the lock, for reading. -/
def rPc (c : Call K) : Bool := match c.pc with | .held => !c.write | _ => false
def wr (ix : K → Option Nat) (m : Nat) (c : Call K) : Bool := wPc c && ix c.key == some m
def rd (ix : K → Option Nat) (m : Nat) (c : Call K) : Bool := rPc c && ix c.key == some m

structure Inv (ix : K → Option Nat) (s : St K) : Prop where
  w : ∀ m, s.log.countP (wr ix m) = (s.mu m).w.toNat
  r : ∀ m, s.log.countP (rd ix m) = (s.mu m).r
  ex : ∀ (i : Nat) (c : Call K) (m : Nat), s.log[i]? = some c → c.write = true → c.pc = .held → ix c.key = some m → (s.mu m).r = 0
  np : ∀ (i : Nat) (c : Call K), s.log[i]? = some c → c.pc = .panic → ix c.key = none
  hd : ∀ (i : Nat) (c : Call K), s.log[i]? = some c → c.pc = .held ∨ c.pc = .announced → ∃ m, ix c.key = some m
  an : ∀ (i : Nat) (c : Call K), s.log[i]? = some c → c.pc = .announced → c.write = true

theorem inv_new (ix : K → Option Nat) : Inv ix (new K) := by
  constructor <;> intros <;> simp_all [new]

theorem inv_upd {ix : K → Option Nat} {s : St K} (h : Inv ix s) {i m : Nat} {c c' : Call K} (hi : s.log[i]? = some c)
    (hm : ix c.key = some m) (hk : c'.key = c.key) {x : Mutex}
    (hw : x.w.toNat + (wPc c).toNat = (s.mu m).w.toNat + (wPc c').toNat) (hr : x.r + (rPc c).toNat = (s.mu m).r + (rPc c').toNat)
    (hx : x.r ≤ (s.mu m).r ∨ (s.mu m).w = false) (hc : c'.write = true → c'.pc = .held → x.r = 0) (hp : c'.pc ≠ .panic)
    (ha : c'.pc = .announced → c'.write = true) : Inv ix (s.upd m x i c') := by
  have hm' : ix c'.key = some m := by rw [hk]; exact hm
  constructor
  · intro n
    have := cnt_set (p := wr ix n) (c' := c') hi
    simp only [St.upd]
    have hn := h.w n
    by_cases e : n = m
    · subst e
      simp only [wr, hm, hm', beq_self_eq_true, Bool.and_true] at this hn ⊢
      rw [if_pos trivial]; omega
    · have e1 : wr ix n c = false := by simp [wr, hm, Ne.symm e]
      have e2 : wr ix n c' = false := by simp [wr, hm', Ne.symm e]
      rw [e1, e2] at this
      rw [if_neg e]; simp only [Bool.toNat_false] at this; omega
  · intro n
    have := cnt_set (p := rd ix n) (c' := c') hi
    simp only [St.upd]
    have hn := h.r n
    by_cases e : n = m
    · subst e
      simp only [rd, hm, hm', beq_self_eq_true, Bool.and_true] at this hn ⊢
      rw [if_pos trivial]; omega
    · have e1 : rd ix n c = false := by simp [rd, hm, Ne.symm e]
      have e2 : rd ix n c' = false := by simp [rd, hm', Ne.symm e]
      rw [e1, e2] at this
      rw [if_neg e]; simp only [Bool.toNat_false] at this; omega
  · intro j d n hj hdw hdp hn
    simp only [St.upd] at hj ⊢
    rcases get_set_cases hj with ⟨rfl, rfl⟩ | ⟨_, hj⟩
    · rw [hm'] at hn; cases hn; rw [if_pos rfl]; exact hc hdw hdp
    · have h0 := h.ex j d n hj hdw hdp hn
      split
      · rename_i e; subst e
        rcases hx with hx | hx
        · omega
        · have h1 := h.w n
          rw [hx] at h1
          have h2 := cnt_pos (p := wr ix n) hj (by simp [wr, wPc, hdp, hdw, hn])
          simp only [Bool.toNat_false] at h1; omega
      · exact h0
  · intro j d hj hdp
    simp only [St.upd] at hj
    rcases get_set_cases hj with ⟨rfl, rfl⟩ | ⟨_, hj⟩
    · exact absurd hdp hp
    · exact h.np j d hj hdp
  · intro j d hj hdp
    simp only [St.upd] at hj
    rcases get_set_cases hj with ⟨rfl, rfl⟩ | ⟨_, hj⟩
    · exact ⟨m, hm'⟩
    · exact h.hd j d hj hdp
  · intro j d hj hdp
    simp only [St.upd] at hj
    rcases get_set_cases hj with ⟨rfl, rfl⟩ | ⟨_, hj⟩
    · exact ha hdp
    · exact h.an j d hj hdp

theorem inv_panic {ix : K → Option Nat} {s : St K} (h : Inv ix s) {i : Nat} {c : Call K} (hi : s.log[i]? = some c) (hm : ix c.key = none) :
    Inv ix { s with log := s.log.set i { c with pc := .panic } } := by
  have e1 : ∀ n, wr ix n c = false := fun n => by simp [wr, hm]
  have e2 : ∀ n, wr ix n { c with pc := .panic } = false := fun n => by simp [wr, hm]
  have e3 : ∀ n, rd ix n c = false := fun n => by simp [rd, hm]
  have e4 : ∀ n, rd ix n { c with pc := .panic } = false := fun n => by simp [rd, hm]
  constructor
  · intro n
    have := cnt_set (p := wr ix n) (c' := { c with pc := .panic }) hi
    rw [e1, e2] at this
    have := h.w n
    simp only [Bool.toNat_false] at *; omega
  · intro n
    have := cnt_set (p := rd ix n) (c' := { c with pc := .panic }) hi
    rw [e3, e4] at this
    have := h.r n
    simp only [Bool.toNat_false] at *; omega
  · intro j d n hj hdw hdp hn
    rcases get_set_cases hj with ⟨rfl, rfl⟩ | ⟨_, hj⟩
    · cases hdp
    · exact h.ex j d n hj hdw hdp hn
  · intro j d hj hdp
    rcases get_set_cases hj with ⟨rfl, rfl⟩ | ⟨_, hj⟩
    · exact hm
    · exact h.np j d hj hdp
  · intro j d hj hdp
    rcases get_set_cases hj with ⟨rfl, rfl⟩ | ⟨_, hj⟩
    · rcases hdp with x | x <;> cases x
    · exact h.hd j d hj hdp
  · intro j d hj hdp
    rcases get_set_cases hj with ⟨rfl, rfl⟩ | ⟨_, hj⟩
    · cases hdp
    · exact h.an j d hj hdp

theorem inv_step {ix : K → Option Nat} {s t : St K} (h : Inv ix s) {i : Nat} {c : Call K} (hi : s.log[i]? = some c)
    (ht : step ix s i c = some t) : Inv ix t := by
  unfold step at ht
  cases hm : ix c.key with
  | none =>
    simp only [hm] at ht
    cases hp : c.pc <;> simp only [hp] at ht <;> cases ht
    exact inv_panic h hi hm
  | some m =>
    simp only [hm] at ht
    cases hp : c.pc <;> simp only [hp] at ht
    case enter =>
      cases hwr : c.write <;> simp only [hwr, if_true, if_false, Bool.false_eq_true] at ht
      · cases hxw : (s.mu m).w <;> simp only [hxw, if_true, if_false, Bool.false_eq_true] at ht
        · cases ht
          refine inv_upd h hi hm ?_ ?_ ?_ ?_ ?_ ?_ ?_; exacts [rfl, (by simp [wPc, hp, hwr, hxw]), (by simp [rPc, hp, hwr]), (.inr hxw), (by simp [hwr]), (by simp), (by simp)]
        · cases htr : c.try_ <;> simp only [htr, if_true, if_false, Bool.false_eq_true] at ht
          · cases ht
          · cases ht
            refine inv_upd h hi hm ?_ ?_ ?_ ?_ ?_ ?_ ?_; exacts [rfl, (by simp [wPc, hp]), (by simp [rPc, hp]), (.inl (Nat.le_refl _)), (by simp), (by simp), (by simp)]
      · cases htr : c.try_ <;> simp only [htr, if_true, if_false, Bool.false_eq_true] at ht
        · cases hxw : (s.mu m).w <;> simp only [hxw, if_true, if_false, Bool.false_eq_true] at ht
          · cases ht
            refine inv_upd h hi hm ?_ ?_ ?_ ?_ ?_ ?_ ?_; exacts [rfl, (by simp [wPc, hp, hwr, hxw]), (by simp [rPc, hp]), (.inr hxw), (by simp), (by simp), (by simp [hwr])]
          · cases ht
        · split at ht
          · rename_i hxx
            cases ht
            refine inv_upd h hi hm ?_ ?_ ?_ ?_ ?_ ?_ ?_; exacts [rfl, (by simp [wPc, hp, hwr, hxx.1]), (by simp [rPc, hp, hwr]), (.inr hxx.1), (by simp [hxx.2]), (by simp), (by simp)]
          · cases ht
            refine inv_upd h hi hm ?_ ?_ ?_ ?_ ?_ ?_ ?_; exacts [rfl, (by simp [wPc, hp]), (by simp [rPc, hp]), (.inl (Nat.le_refl _)), (by simp), (by simp), (by simp)]
    case announced =>
      have hwr := h.an i c hi hp
      split at ht
      · rename_i hr
        cases ht
        refine inv_upd h hi hm ?_ ?_ ?_ ?_ ?_ ?_ ?_; exacts [rfl, (by simp [wPc, hp, hwr]), (by simp [rPc, hp, hwr]), (.inl (Nat.le_refl _)), (by simp [hr]), (by simp), (by simp)]
      · cases ht
    all_goals cases ht

theorem inv_unlock {ix : K → Option Nat} {s t : St K} (h : Inv ix s) {i : Nat} {c : Call K} (hi : s.log[i]? = some c)
    (ht : unlock ix s i c = some t) : Inv ix t := by
  unfold unlock at ht
  cases hp : c.pc <;> simp only [hp] at ht <;> try cases ht
  obtain ⟨m, hm⟩ := h.hd i c hi (.inl hp)
  simp only [hm] at ht
  cases hwr : c.write <;> simp only [hwr, if_true, if_false, Bool.false_eq_true] at ht
  · have := cnt_pos (p := rd ix m) hi (by simp [rd, rPc, hp, hwr, hm])
    have hr := h.r m
    rw [if_neg (by omega)] at ht
    cases ht
    refine inv_upd h hi hm ?_ ?_ ?_ ?_ ?_ ?_ ?_; exacts [rfl, (by simp [wPc, hp, hwr]), (by simp [rPc, hp, hwr]; omega), (.inl (by simp)), (by simp), (by simp), (by simp)]
  · have := cnt_pos (p := wr ix m) hi (by simp [wr, wPc, hp, hwr, hm])
    have hw := h.w m
    cases hxw : (s.mu m).w with
    | false => rw [hxw] at hw; simp only [Bool.toNat_false] at hw; omega
    | true =>
      simp only [hxw, if_true] at ht
      cases ht
      refine inv_upd h hi hm ?_ ?_ ?_ ?_ ?_ ?_ ?_; exacts [rfl, (by simp [wPc, hp, hwr, hxw]), (by simp [rPc, hp, hwr]), (.inl (Nat.le_refl _)), (by simp), (by simp), (by simp)]

theorem inv_act {ix : K → Option Nat} {s t : St K} (h : Inv ix s) {a : Act K} (ht : act ix s a = some t) : Inv ix t := by
  cases a with
  | start key write try_ =>
    simp only [act, Option.some.injEq] at ht
    subst ht
    constructor
    · intro m; simp [wr, wPc, h.w m]
    · intro m; simp [rd, rPc, h.r m]
    · intro j d n hj hdw hdp hn
      rcases get_app hj with ⟨hj, _⟩ | ⟨_, rfl⟩
      · exact h.ex j d n hj hdw hdp hn
      · cases hdp
    · intro j d hj hdp
      rcases get_app hj with ⟨hj, _⟩ | ⟨_, rfl⟩
      · exact h.np j d hj hdp
      · cases hdp
    · intro j d hj hdp
      rcases get_app hj with ⟨hj, _⟩ | ⟨_, rfl⟩
      · exact h.hd j d hj hdp
      · rcases hdp with x | x <;> cases x
    · intro j d hj hdp
      rcases get_app hj with ⟨hj, _⟩ | ⟨_, rfl⟩
      · exact h.an j d hj hdp
      · cases hdp
  | step i =>
    simp only [act] at ht
    cases hi : s.log[i]? with
    | none => simp [hi] at ht
    | some c => simp only [hi, Option.bind_some] at ht; exact inv_step h hi ht
  | unlock i =>
    simp only [act] at ht
    cases hi : s.log[i]? with
    | none => simp [hi] at ht
    | some c => simp only [hi, Option.bind_some] at ht; exact inv_unlock h hi ht

theorem inv_exec {ix : K → Option Nat} {s t : St K} (h : Inv ix s) {as : List (Act K)} (ht : exec ix s as = some t) : Inv ix t := by
  induction as generalizing s with
  | nil => simp only [exec, Option.some.injEq] at ht; subst ht; exact h
  | cons a as ih =>
    simp only [exec] at ht
    cases ha : act ix s a with
    | none => simp [ha] at ht
    | some u => simp only [ha, Option.bind_some] at ht; exact ih (inv_act h ha) ht

theorem holder_of_w {ix : K → Option Nat} {s : St K} (h : Inv ix s) {m : Nat} (hw : (s.mu m).w = true) :
    ∃ (j : Nat) (d : Call K), s.log[j]? = some d ∧ ix d.key = some m ∧ d.write = true ∧ (d.pc = .held ∨ d.pc = .announced) := by
  have h1 := h.w m
  rw [hw] at h1
  obtain ⟨d, hd, hp⟩ := List.countP_pos_iff.1 (by rw [h1]; decide : 0 < s.log.countP (wr ix m))
  obtain ⟨j, hj⟩ := List.getElem?_of_mem hd
  simp only [wr, wPc, Bool.and_eq_true, beq_iff_eq] at hp
  refine ⟨j, d, hj, hp.2, ?_⟩
  cases hpc : d.pc <;> simp_all

theorem holder_of_r {ix : K → Option Nat} {s : St K} (h : Inv ix s) {m : Nat} (hr : (s.mu m).r ≠ 0) :
    ∃ (j : Nat) (d : Call K), s.log[j]? = some d ∧ ix d.key = some m ∧ d.write = false ∧ d.pc = .held := by
  have h1 := h.r m
  obtain ⟨d, hd, hp⟩ := List.countP_pos_iff.1 (by omega : 0 < s.log.countP (rd ix m))
  obtain ⟨j, hj⟩ := List.getElem?_of_mem hd
  simp only [rd, rPc, Bool.and_eq_true, beq_iff_eq] at hp
  refine ⟨j, d, hj, hp.2, ?_⟩
  cases hpc : d.pc <;> simp_all

/-! ### `LimitLock` -/
namespace Limit

def inCh : Pc → Bool | .sent | .held | .unlocking => true | _ => false
/-- `count` has been increased. -/
def counted : Pc → Bool | .held | .unlocking | .received | .released => true | _ => false
def counted' : Pc → Bool | .released => true | _ => false

structure Inv (limit : Nat) (s : St) : Prop where
  ch : s.log.countP inCh = s.ch
  le : s.ch ≤ limit
  count : s.count = BitVec.ofNat 64 (s.log.countP counted)
  count' : s.count' = BitVec.ofNat 64 (s.log.countP counted')

theorem inv_new (limit : Nat) : Inv limit new := ⟨rfl, Nat.zero_le _, rfl, rfl⟩

theorem inv_set {limit : Nat} {s : St} (h : Inv limit s) {i : Nat} {c : Pc} (hi : s.log[i]? = some c) {c' : Pc} {ch : Nat} {n n' : BitVec 64}
    (h1 : ch + (inCh c).toNat = s.ch + (inCh c').toNat) (hl : ch ≤ limit)
    (h2 : n + BitVec.ofNat 64 (counted c).toNat = s.count + BitVec.ofNat 64 (counted c').toNat)
    (h3 : n' + BitVec.ofNat 64 (counted' c).toNat = s.count' + BitVec.ofNat 64 (counted' c').toNat) : Inv limit ⟨ch, n, n', s.log.set i c'⟩ := by
  have c1 := cnt_set (p := inCh) (c' := c') hi
  have c2 := cnt_set (p := counted) (c' := c') hi
  have c3 := cnt_set (p := counted') (c' := c') hi
  refine ⟨?_, hl, ?_, ?_⟩
  · have := h.ch
    show (s.log.set i c').countP inCh = ch
    omega
  · have e := congrArg (BitVec.ofNat 64) c2
    rw [BitVec.ofNat_add, BitVec.ofNat_add, ← h.count, ← h2] at e
    exact (BitVec.add_left_inj _).1 e.symm
  · have e := congrArg (BitVec.ofNat 64) c3
    rw [BitVec.ofNat_add, BitVec.ofNat_add, ← h.count', ← h3] at e
    exact (BitVec.add_left_inj _).1 e.symm

theorem inv_act {limit : Nat} {s t : St} (h : Inv limit s) {a : Act} (ht : act limit s a = some t) : Inv limit t := by
  cases a with
  | lock => simp only [act, Option.some.injEq] at ht; subst ht; exact ⟨by simp [inCh, h.ch], h.le, by simp [counted, h.count], by simp [counted', h.count']⟩
  | cc => simp only [act, Option.some.injEq] at ht; subst ht; exact ⟨by simp [inCh, h.ch], h.le, by simp [counted, h.count], by simp [counted', h.count']⟩
  | step i =>
    simp only [act] at ht
    cases hi : s.log[i]? with
    | none => simp [hi] at ht
    | some c =>
      simp only [hi, Option.bind_some] at ht
      have hle := h.le
      cases c <;> simp only [step] at ht
      case select =>
        split at ht <;> cases ht
        exact inv_set h hi (by simp [inCh]) (by omega) (by simp [counted]) (by simp [counted'])
      case sent => cases ht; exact inv_set h hi (by simp [inCh]) hle (by simp [counted]) (by simp [counted'])
      case unlocking =>
        split at ht <;> cases ht
        exact inv_set h hi (by simp [inCh]; omega) (by omega) (by simp [counted]) (by simp [counted'])
      case received => cases ht; exact inv_set h hi (by simp [inCh]) hle (by simp [counted]) (by simp [counted'])
      case ccStart => cases ht; exact inv_set h hi (by simp [inCh]) hle (by simp [counted]) (by simp [counted'])
      case ccRead => cases ht; exact inv_set h hi (by simp [inCh]) hle (by simp [counted]) (by simp [counted'])
      all_goals cases ht
  | timeout i =>
    simp only [act] at ht
    split at ht <;> cases ht
    rename_i hi
    exact inv_set h hi (by simp [inCh]) h.le (by simp [counted]) (by simp [counted'])
  | unlock i =>
    simp only [act] at ht
    split at ht <;> cases ht
    rename_i hi
    exact inv_set h hi (by simp [inCh]) h.le (by simp [counted]) (by simp [counted'])

theorem inv_exec {limit : Nat} {s t : St} (h : Inv limit s) {as : List Act} (ht : exec limit s as = some t) : Inv limit t := by
  induction as generalizing s with
  | nil => simp only [exec, Option.some.injEq] at ht; subst ht; exact h
  | cons a as ih =>
    simp only [exec] at ht
    cases ha : act limit s a with
    | none => simp [ha] at ht
    | some u => simp only [ha, Option.bind_some] at ht; exact ih (inv_act h ha) ht

end Limit
end Gofer.Lock
