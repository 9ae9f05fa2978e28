import Verif.Model.Await
import Verif.Proof.Count
import Mathlib.Data.List.Basic

/-! # `Await`: helper lemmas -/
namespace Gofer.Await
open Gofer.Count

variable {V : Type}

/-- The channel a call works on. -/
def chanOf : Pc → Option Nat
  | .wPut ch | .wUnlock ch | .select ch | .wClose ch | .del ch | .send ch | .close ch => some ch
  | _ => none
/-- Holds the mutex of its id. -/
def inLock : Pc → Bool
  | .wLocked | .wPut _ | .wUnlock _ | .get | .del _ | .send _ | .close _ | .unlock _ => true
  | _ => false
def inL (ix : Id → Nat) (k : Nat) (c : Call V) : Bool := inLock c.pc && ix c.idx == k
/-- The call whose value has been received. -/
def gotOf : Pc → Option Nat
  | .wDel (.got p) | .wRet (.got p) => some p
  | _ => none
/-- Works on a channel nothing has been sent to. -/
def emptyPc (ch : Nat) : Pc → Prop
  | .wPut x | .del x | .send x => x = ch
  | _ => False
/-- Has taken the channel out of the map. -/
def outPc (ch : Nat) : Pc → Prop
  | .send x | .close x => x = ch
  | _ => False
/-- May have sent its value. -/
def sent (c : Call V) : Bool :=
  match c.kind, c.pc with
  | .put _, .close _ | .put _, .unlock _ | .put _, .ret _ => true
  | _, _ => false
def kindOk (c : Call V) : Bool :=
  match c.kind, c.pc with
  | .wait _ _, .wEnter | .wait _ _, .wLocked | .wait _ _, .wPut _ | .wait _ _, .wUnlock _ | .wait _ _, .select _ | .wait _ _, .wClose _
  | .wait _ _, .wDel _ | .wait _ _, .wRet _ => true
  | .put _, .has _ | .put _, .lock | .put _, .get | .put _, .del _ | .put _, .send _ | .put _, .close _ | .put _, .unlock _ | .put _, .ret _ => true
  | .close, .has _ | .close, .lock | .close, .get | .close, .del _ | .close, .close _ | .close, .unlock _ | .close, .ret _ => true
  | _, _ => false

def isPut (c : Call V) : Bool := match c.kind with | .put _ => true | _ => false

def ib (k : Chan) : Id × Option Nat := (k.idx, k.buf)
def holdsBuf (p : Nat) (k : Chan) : Bool := k.buf == some p
def hasGot (p : Nat) (c : Call V) : Bool := gotOf c.pc == some p
/-- Where the value of call `p` is: in channels or with waiters. -/
def occ (s : St V) (p : Nat) : Nat := s.chans.countP (holdsBuf p) + s.log.countP (hasGot p)
def sentN (log : List (Call V)) (p : Nat) : Nat := ((log[p]?).map fun c => (sent c).toNat).getD 0

structure Inv (ix : Id → Nat) (s : St V) : Prop where
  lk : ∀ k, s.log.countP (inL ix k) = (s.lk k).toNat
  mv : ∀ x ch, s.m x = some ch → ∃ k, s.chans[ch]? = some k ∧ k.idx = x ∧ k.buf = none
  ref : ∀ (i : Nat) (c : Call V) (ch : Nat), s.log[i]? = some c → chanOf c.pc = some ch → ∃ k, s.chans[ch]? = some k ∧ k.idx = c.idx
  nb : ∀ (i : Nat) (c : Call V) (ch : Nat), s.log[i]? = some c → emptyPc ch c.pc → ∃ k, s.chans[ch]? = some k ∧ k.buf = none
  fr : ∀ (i : Nat) (c : Call V) (ch : Nat), s.log[i]? = some c → c.pc = .wPut ch →
    s.m c.idx = none ∧ ∀ (j : Nat) (d : Call V), s.log[j]? = some d → j ≠ i → chanOf d.pc ≠ some ch
  out : ∀ (i : Nat) (c : Call V) (ch : Nat), s.log[i]? = some c → outPc ch c.pc → s.m c.idx ≠ some ch
  occ : ∀ p, occ s p ≤ sentN s.log p
  bi : ∀ (ch : Nat) (k : Chan) (p : Nat), s.chans[ch]? = some k → k.buf = some p → ∃ d, s.log[p]? = some d ∧ isPut d = true ∧ d.idx = k.idx
  gi : ∀ (i : Nat) (c : Call V) (p : Nat), s.log[i]? = some c → gotOf c.pc = some p → ∃ d, s.log[p]? = some d ∧ isPut d = true ∧ d.idx = c.idx
  ko : ∀ (i : Nat) (c : Call V), s.log[i]? = some c → kindOk c = true

theorem inv_new (ix : Id → Nat) : Inv ix (new V) := by
  constructor <;> intros <;> simp_all [new, Await.occ]

theorem get_of_map {l l' : List Chan} (h : l'.map ib = l.map ib) {ch : Nat} {k : Chan} (hk : l[ch]? = some k) :
    ∃ k', l'[ch]? = some k' ∧ k'.idx = k.idx ∧ k'.buf = k.buf := by
  have := congrArg (fun l => l[ch]?) h
  simp only [List.getElem?_map, hk, Option.map_some, Option.map_eq_some_iff] at this
  obtain ⟨k', h1, h2⟩ := this
  refine ⟨k', h1, congrArg Prod.fst h2, congrArg Prod.snd h2⟩

theorem count_of_map {l l' : List Chan} (h : l'.map ib = l.map ib) (p : Nat) : l'.countP (holdsBuf p) = l.countP (holdsBuf p) := by
  have e : ∀ l : List Chan, l.countP (holdsBuf p) = (l.map ib).countP fun x => x.2 == some p := fun l => by
    rw [List.countP_map]; rfl
  rw [e, e, h]

theorem sentN_set {log : List (Call V)} {i p : Nat} {c c' : Call V} (hi : log[i]? = some c) (hs : sent c = true → sent c' = true) :
    sentN log p ≤ sentN (log.set i c') p := by
  unfold sentN
  by_cases e : p = i
  · subst e
    rw [get_set_self hi, hi]
    simp only [Option.map_some, Option.getD_some]
    cases h : sent c with
    | false => simp
    | true => simp [hs h]
  · rw [get_set_ne e]; exact Nat.le_refl _

theorem put_set {log : List (Call V)} {i p : Nat} {c c' d : Call V} {x : Id} (hi : log[i]? = some c) (hk : c'.kind = c.kind) (hx : c'.idx = c.idx)
    (hd : log[p]? = some d) (h1 : isPut d = true) (h2 : d.idx = x) : ∃ d', (log.set i c')[p]? = some d' ∧ isPut d' = true ∧ d'.idx = x := by
  by_cases e : p = i
  · subst e
    rw [hi] at hd; cases hd
    exact ⟨c', get_set_self hi, by simp only [isPut, hk]; exact h1, hx.trans h2⟩
  · exact ⟨d, by rw [get_set_ne e]; exact hd, h1, h2⟩

/-- Two calls that hold the same mutex are the same. -/
theorem lock_one {ix : Id → Nat} {s : St V} (h : Inv ix s) {i j : Nat} {c d : Call V} (hi : s.log[i]? = some c) (hj : s.log[j]? = some d)
    (hc : inLock c.pc = true) (hd : inLock d.pc = true) (he : c.idx = d.idx) : i = j := by
  refine cnt_one (p := inL ix (ix c.idx)) ?_ hi hj (by simp [inL, hc]) (by simp [inL, hd, he])
  rw [h.lk]; exact Bool.toNat_le _

/-- A step that leaves the buffers alone and adds nothing to the map. -/
theorem inv_keep {ix : Id → Nat} {s t : St V} (h : Inv ix s) {i : Nat} {c c' : Call V} (hi : s.log[i]? = some c)
    (hlog : t.log = s.log.set i c') (hk : c'.kind = c.kind) (hx : c'.idx = c.idx)
    (hlk : ∀ k, (t.lk k).toNat + (inL ix k c).toNat = (s.lk k).toNat + (inL ix k c').toNat)
    (hm : ∀ x ch, t.m x = some ch → s.m x = some ch) (hch : t.chans.map ib = s.chans.map ib) (hko : kindOk c' = true)
    (href : ∀ ch, chanOf c'.pc = some ch → chanOf c.pc = some ch ∨ s.m c.idx = some ch)
    (hnb : ∀ ch, emptyPc ch c'.pc → emptyPc ch c.pc ∨ s.m c.idx = some ch)
    (hnp : ∀ ch, c'.pc ≠ .wPut ch) (hout : ∀ ch, outPc ch c'.pc → outPc ch c.pc ∨ t.m c.idx ≠ some ch)
    (hgot : gotOf c'.pc = gotOf c.pc) (hsent : sent c = true → sent c' = true) : Inv ix t := by
  have hx' := hx
  constructor
  · intro k
    have := cnt_set (p := inL ix k) (c' := c') hi
    rw [hlog]
    have h1 := h.lk k
    have h2 := hlk k
    omega
  · intro x ch hc
    obtain ⟨k, h1, h2, h3⟩ := h.mv x ch (hm x ch hc)
    obtain ⟨k', g1, g2, g3⟩ := get_of_map hch h1
    exact ⟨k', g1, g2.trans h2, g3.trans h3⟩
  · intro j d ch hj hd
    rw [hlog] at hj
    have : ∃ k, s.chans[ch]? = some k ∧ k.idx = d.idx := by
      replace hj := get_set_cases hj
      rcases hj with ⟨rfl, rfl⟩ | ⟨_, hj⟩
      · rw [hx]
        rcases href ch hd with hr | hr
        · exact h.ref j c ch hi hr
        · obtain ⟨k, h1, h2, _⟩ := h.mv _ _ hr
          exact ⟨k, h1, h2⟩
      · exact h.ref j d ch hj hd
    obtain ⟨k, h1, h2⟩ := this
    obtain ⟨k', g1, g2, _⟩ := get_of_map hch h1
    exact ⟨k', g1, g2.trans h2⟩
  · intro j d ch hj hd
    rw [hlog] at hj
    have : ∃ k, s.chans[ch]? = some k ∧ k.buf = none := by
      replace hj := get_set_cases hj
      rcases hj with ⟨rfl, rfl⟩ | ⟨_, hj⟩
      · rcases hnb ch hd with hr | hr
        · exact h.nb j c ch hi hr
        · obtain ⟨k, h1, _, h2⟩ := h.mv _ _ hr
          exact ⟨k, h1, h2⟩
      · exact h.nb j d ch hj hd
    obtain ⟨k, h1, h2⟩ := this
    obtain ⟨k', g1, _, g2⟩ := get_of_map hch h1
    exact ⟨k', g1, g2.trans h2⟩
  · intro j d ch hj hd
    rw [hlog] at hj
    replace hj := get_set_cases hj
    rcases hj with ⟨rfl, rfl⟩ | ⟨hne, hj⟩
    · exact absurd hd (hnp ch)
    · obtain ⟨h1, h2⟩ := h.fr j d ch hj hd
      refine ⟨?_, fun a e ha hae => ?_⟩
      · cases hh : t.m d.idx with
        | none => rfl
        | some ch' => rw [hm _ _ hh] at h1; cases h1
      · rw [hlog] at ha
        replace ha := get_set_cases ha
        rcases ha with ⟨rfl, rfl⟩ | ⟨_, ha⟩
        · intro hc
          rcases href ch hc with hr | hr
          · exact h2 a c hi hae hr
          · obtain ⟨k, g1, g2, _⟩ := h.mv _ _ hr
            obtain ⟨k', g3, g4⟩ := h.ref j d ch hj (by rw [hd]; rfl)
            rw [g1] at g3; cases g3
            rw [← g4, g2, hr] at h1; cases h1
        · exact h2 a e ha hae
  · intro j d ch hj hd
    rw [hlog] at hj
    replace hj := get_set_cases hj
    rcases hj with ⟨rfl, rfl⟩ | ⟨_, hj⟩
    · rw [hx]
      rcases hout ch hd with hr | hr
      · exact fun e => h.out j c ch hi hr (hm _ _ e)
      · exact hr
    · exact fun e => h.out j d ch hj hd (hm _ _ e)
  · intro p
    have h1 := h.occ p
    have h2 := sentN_set (p := p) hi hsent
    have h3 := cnt_set (p := hasGot p) (c' := c') hi
    have h4 : hasGot p c' = hasGot p c := by simp [hasGot, hgot]
    have h5 := count_of_map hch p
    rw [h4] at h3
    simp only [Await.occ, hlog] at h1 ⊢
    omega
  · intro ch k p hc hp
    obtain ⟨k', g1, g2, g3⟩ := get_of_map hch.symm hc
    obtain ⟨d, d1, d2, d3⟩ := h.bi ch k' p g1 (g3.trans hp)
    rw [hlog]
    exact put_set hi hk hx d1 d2 (d3.trans g2)
  · intro j d p hj hd
    rw [hlog] at hj ⊢
    have : ∃ e, s.log[p]? = some e ∧ isPut e = true ∧ e.idx = d.idx := by
      replace hj := get_set_cases hj
      rcases hj with ⟨rfl, rfl⟩ | ⟨_, hj⟩
      · rw [hx]; exact h.gi j c p hi (hgot ▸ hd)
      · exact h.gi j d p hj hd
    obtain ⟨e, e1, e2, e3⟩ := this
    exact put_set hi hk hx e1 e2 e3
  · intro j d hj
    rw [hlog] at hj
    replace hj := get_set_cases hj
    rcases hj with ⟨rfl, rfl⟩ | ⟨_, hj⟩
    · exact hko
    · exact h.ko j d hj

theorem upd_lk {ix : Id → Nat} {s : St V} {c c' : Call V} {b : Bool} (hx : c'.idx = c.idx)
    (h : b.toNat + (inLock c.pc).toNat = (s.lk (ix c.idx)).toNat + (inLock c'.pc).toNat) (k : Nat) :
    (upd s.lk (ix c.idx) b k).toNat + (inL ix k c).toNat = (s.lk k).toNat + (inL ix k c').toNat := by
  unfold upd inL
  rw [hx]
  by_cases e : k = ix c.idx
  · subst e; simpa using h
  · have e' : (ix c.idx == k) = false := by simpa using Ne.symm e
    simp [e, e']

theorem same_lk {ix : Id → Nat} {s : St V} {c c' : Call V} (hx : c'.idx = c.idx) (h : inLock c'.pc = inLock c.pc) (k : Nat) :
    (s.lk k).toNat + (inL ix k c).toNat = (s.lk k).toNat + (inL ix k c').toNat := by
  simp [inL, hx, h]

theorem upd_none {m : Id → Option Nat} {x : Id} (y : Id) (ch : Nat) (h : upd m x none y = some ch) : m y = some ch := by
  unfold upd at h
  split at h
  · cases h
  · exact h

theorem close_map {l : List Chan} {ch : Nat} {k : Chan} (h : l[ch]? = some k) : (l.set ch { k with closed := true }).map ib = l.map ib := by
  rw [List.map_set]
  refine List.ext_getElem? fun j => ?_
  rw [List.getElem?_set]
  split
  · rename_i e; subst e
    have hl : ch < (l.map ib).length := by simpa using (List.getElem?_eq_some_iff.1 h).1
    rw [if_pos hl, List.getElem?_map, h]; rfl
  · rfl

/-- The channel is made. -/
theorem inv_make {ix : Id → Nat} {s : St V} (h : Inv ix s) {i : Nat} {c : Call V} (hi : s.log[i]? = some c) (hp : c.pc = .wLocked) (hm : s.m c.idx = none)
    (hko : kindOk { c with pc := .wPut s.chans.length } = true) :
    Inv ix { s with chans := s.chans ++ [{ idx := c.idx }], log := s.log.set i { c with pc := .wPut s.chans.length } } := by
  have app : ∀ {ch : Nat} {k : Chan}, s.chans[ch]? = some k → (s.chans ++ [{ idx := c.idx }])[ch]? = some k := fun hk => by
    rw [List.getElem?_append_left (List.getElem?_eq_some_iff.1 hk).1]; exact hk
  have last : (s.chans ++ [({ idx := c.idx } : Chan)])[s.chans.length]? = some { idx := c.idx } := by simp
  constructor
  · intro k
    have := cnt_set (p := inL ix k) (c' := { c with pc := .wPut s.chans.length }) hi
    have h1 := h.lk k
    have h2 := same_lk (ix := ix) (s := s) (c := c) (c' := { c with pc := .wPut s.chans.length }) rfl (by simp [inLock, hp]) k
    simp only at *
    omega
  · intro x ch hc
    obtain ⟨k, h1, h2, h3⟩ := h.mv x ch hc
    exact ⟨k, app h1, h2, h3⟩
  · intro j d ch hj hd
    replace hj := get_set_cases hj
    rcases hj with ⟨rfl, rfl⟩ | ⟨_, hj⟩
    · simp only [chanOf, Option.some.injEq] at hd
      subst hd
      exact ⟨_, last, rfl⟩
    · obtain ⟨k, h1, h2⟩ := h.ref j d ch hj hd
      exact ⟨k, app h1, h2⟩
  · intro j d ch hj hd
    replace hj := get_set_cases hj
    rcases hj with ⟨rfl, rfl⟩ | ⟨_, hj⟩
    · simp only [emptyPc] at hd
      subst hd
      exact ⟨_, last, rfl⟩
    · obtain ⟨k, h1, h2⟩ := h.nb j d ch hj hd
      exact ⟨k, app h1, h2⟩
  · intro j d ch hj hd
    replace hj := get_set_cases hj
    rcases hj with ⟨rfl, rfl⟩ | ⟨hne, hj⟩
    · simp only [Pc.wPut.injEq] at hd
      subst hd
      refine ⟨hm, fun a e ha hae hch => ?_⟩
      replace ha := get_set_cases ha
      rcases ha with ⟨rfl, _⟩ | ⟨_, ha⟩
      · exact hae rfl
      · obtain ⟨k, h1, _⟩ := h.ref a e _ ha hch
        have := (List.getElem?_eq_some_iff.1 h1).1
        omega
    · obtain ⟨h1, h2⟩ := h.fr j d ch hj hd
      refine ⟨h1, fun a e ha hae => ?_⟩
      replace ha := get_set_cases ha
      rcases ha with ⟨rfl, rfl⟩ | ⟨_, ha⟩
      · obtain ⟨k, g1, _⟩ := h.ref j d ch hj (by rw [hd]; rfl)
        have := (List.getElem?_eq_some_iff.1 g1).1
        simp only [chanOf, ne_eq, Option.some.injEq]
        omega
      · exact h2 a e ha hae
  · intro j d ch hj hd
    replace hj := get_set_cases hj
    rcases hj with ⟨rfl, rfl⟩ | ⟨_, hj⟩
    · cases hd
    · exact h.out j d ch hj hd
  · intro p
    have h1 := h.occ p
    have h2 := sentN_set (p := p) (c' := { c with pc := .wPut s.chans.length }) hi (by simp [sent, hp])
    have h3 := cnt_set (p := hasGot p) (c' := { c with pc := .wPut s.chans.length }) hi
    have h4 : hasGot p { c with pc := .wPut s.chans.length } = hasGot p c := by simp [hasGot, hp, gotOf]
    have h5 : holdsBuf p { idx := c.idx } = false := rfl
    rw [h4] at h3
    simp only [Await.occ, List.countP_append, List.countP_singleton, h5] at h1 ⊢
    simp only [Bool.false_eq_true, if_false]
    omega
  · intro ch k p hc hb
    rcases get_app hc with ⟨hc, _⟩ | ⟨_, rfl⟩
    · obtain ⟨d, d1, d2, d3⟩ := h.bi ch k p hc hb
      exact put_set hi rfl rfl d1 d2 d3
    · cases hb
  · intro j d p hj hd
    replace hj := get_set_cases hj
    rcases hj with ⟨rfl, rfl⟩ | ⟨_, hj⟩
    · cases hd
    · obtain ⟨e, e1, e2, e3⟩ := h.gi j d p hj hd
      exact put_set hi rfl rfl e1 e2 e3
  · intro j d hj
    replace hj := get_set_cases hj
    rcases hj with ⟨rfl, rfl⟩ | ⟨_, hj⟩
    · exact hko
    · exact h.ko j d hj

/-- The new channel is put into the map. -/
theorem inv_put {ix : Id → Nat} {s : St V} (h : Inv ix s) {i ch0 : Nat} {c : Call V} (hi : s.log[i]? = some c) (hp : c.pc = .wPut ch0)
    (hko : kindOk { c with pc := .wUnlock ch0 } = true) :
    Inv ix { s with m := upd s.m c.idx (some ch0), log := s.log.set i { c with pc := .wUnlock ch0 } } := by
  obtain ⟨f1, f2⟩ := h.fr i c ch0 hi hp
  obtain ⟨k0, r1, r2⟩ := h.ref i c ch0 hi (by rw [hp]; rfl)
  obtain ⟨k0', r3, r4⟩ := h.nb i c ch0 hi (by rw [hp]; rfl)
  rw [r1] at r3; cases r3
  have mcase : ∀ {x : Id} {ch : Nat}, upd s.m c.idx (some ch0) x = some ch → (x = c.idx ∧ ch = ch0) ∨ s.m x = some ch := by
    intro x ch hx
    unfold upd at hx
    split at hx
    · rename_i e; cases hx; exact .inl ⟨e, rfl⟩
    · exact .inr hx
  constructor
  · intro k
    have := cnt_set (p := inL ix k) (c' := { c with pc := .wUnlock ch0 }) hi
    have h1 := h.lk k
    have h2 := same_lk (ix := ix) (s := s) (c := c) (c' := { c with pc := .wUnlock ch0 }) rfl (by simp [inLock, hp]) k
    simp only at *
    omega
  · intro x ch hc
    rcases mcase hc with ⟨rfl, rfl⟩ | hc
    · exact ⟨k0, r1, r2, r4⟩
    · exact h.mv x ch hc
  · intro j d ch hj hd
    replace hj := get_set_cases hj
    rcases hj with ⟨rfl, rfl⟩ | ⟨_, hj⟩
    · simp only [chanOf, Option.some.injEq] at hd
      subst hd
      exact ⟨k0, r1, r2⟩
    · exact h.ref j d ch hj hd
  · intro j d ch hj hd
    replace hj := get_set_cases hj
    rcases hj with ⟨rfl, rfl⟩ | ⟨_, hj⟩
    · cases hd
    · exact h.nb j d ch hj hd
  · intro j d ch hj hd
    replace hj := get_set_cases hj
    rcases hj with ⟨rfl, rfl⟩ | ⟨hne, hj⟩
    · cases hd
    · obtain ⟨h1, h2⟩ := h.fr j d ch hj hd
      refine ⟨?_, fun a e ha hae => ?_⟩
      · cases hh : upd s.m c.idx (some ch0) d.idx with
        | none => exact hh
        | some x =>
          rcases mcase hh with ⟨e, _⟩ | hh
          · exact absurd (lock_one h hj hi (by rw [hd]; rfl) (by rw [hp]; rfl) e) hne
          · rw [hh] at h1; cases h1
      · replace ha := get_set_cases ha
        rcases ha with ⟨rfl, rfl⟩ | ⟨_, ha⟩
        · have := h2 a c hi hae
          rw [hp] at this
          exact this
        · exact h2 a e ha hae
  · intro j d ch hj hd
    replace hj := get_set_cases hj
    rcases hj with ⟨rfl, rfl⟩ | ⟨hne, hj⟩
    · cases hd
    · intro hx
      rcases mcase hx with ⟨_, rfl⟩ | hx
      · refine f2 j d hj hne ?_
        cases hdp : d.pc <;> simp_all [outPc, chanOf]
      · exact h.out j d ch hj hd hx
  · intro p
    have h1 := h.occ p
    have h2 := sentN_set (p := p) (c' := { c with pc := .wUnlock ch0 }) hi (by simp [sent, hp])
    have h3 := cnt_set (p := hasGot p) (c' := { c with pc := .wUnlock ch0 }) hi
    have h4 : hasGot p { c with pc := .wUnlock ch0 } = hasGot p c := by simp [hasGot, hp, gotOf]
    rw [h4] at h3
    simp only [Await.occ] at h1 ⊢
    omega
  · intro ch k p hc hb
    obtain ⟨d, d1, d2, d3⟩ := h.bi ch k p hc hb
    exact put_set hi rfl rfl d1 d2 d3
  · intro j d p hj hd
    replace hj := get_set_cases hj
    rcases hj with ⟨rfl, rfl⟩ | ⟨_, hj⟩
    · cases hd
    · obtain ⟨e, e1, e2, e3⟩ := h.gi j d p hj hd
      exact put_set hi rfl rfl e1 e2 e3
  · intro j d hj
    replace hj := get_set_cases hj
    rcases hj with ⟨rfl, rfl⟩ | ⟨_, hj⟩
    · exact hko
    · exact h.ko j d hj

/-- The value is sent. -/
theorem inv_send {ix : Id → Nat} {s : St V} (h : Inv ix s) {i ch0 : Nat} {c : Call V} {k0 : Chan} (hi : s.log[i]? = some c) (hp : c.pc = .send ch0)
    (hc0 : s.chans[ch0]? = some k0) (hb0 : k0.buf = none) :
    Inv ix { s with chans := s.chans.set ch0 { k0 with buf := some i }, log := s.log.set i { c with pc := .close ch0 } } := by
  have hput : isPut c = true := by
    have := h.ko i c hi
    cases hk : c.kind <;> simp_all [kindOk, isPut]
  obtain ⟨k1, r1, r2⟩ := h.ref i c ch0 hi (by rw [hp]; rfl)
  rw [hc0] at r1; cases r1
  have hout := h.out i c ch0 hi (by rw [hp]; rfl)
  have look : ∀ {ch : Nat} {k : Chan}, s.chans[ch]? = some k → ∃ k', (s.chans.set ch0 { k0 with buf := some i })[ch]? = some k' ∧ k'.idx = k.idx ∧
      (ch ≠ ch0 → k'.buf = k.buf) := by
    intro ch k hk
    by_cases e : ch = ch0
    · subst e
      rw [hc0] at hk; cases hk
      exact ⟨_, get_set_self hc0, rfl, fun hx => absurd rfl hx⟩
    · exact ⟨k, by rw [get_set_ne e]; exact hk, rfl, fun _ => rfl⟩
  constructor
  · intro k
    have := cnt_set (p := inL ix k) (c' := { c with pc := .close ch0 }) hi
    have h1 := h.lk k
    have h2 := same_lk (ix := ix) (s := s) (c := c) (c' := { c with pc := .close ch0 }) rfl (by simp [inLock, hp]) k
    simp only at *
    omega
  · intro x ch hc
    obtain ⟨k, h1, h2, h3⟩ := h.mv x ch hc
    obtain ⟨k', g1, g2, g3⟩ := look h1
    refine ⟨k', g1, g2.trans h2, ?_⟩
    rw [g3, h3]
    rintro rfl
    rw [hc0] at h1; cases h1
    rw [← r2, h2] at hout
    exact hout hc
  · intro j d ch hj hd
    have : ∃ k, s.chans[ch]? = some k ∧ k.idx = d.idx := by
      replace hj := get_set_cases hj
      rcases hj with ⟨rfl, rfl⟩ | ⟨_, hj⟩
      · simp only [chanOf, Option.some.injEq] at hd
        subst hd
        exact ⟨k0, hc0, r2⟩
      · exact h.ref j d ch hj hd
    obtain ⟨k, h1, h2⟩ := this
    obtain ⟨k', g1, g2, _⟩ := look h1
    exact ⟨k', g1, g2.trans h2⟩
  · intro j d ch hj hd
    replace hj := get_set_cases hj
    rcases hj with ⟨rfl, rfl⟩ | ⟨hne, hj⟩
    · cases hd
    · obtain ⟨k, h1, h2⟩ := h.nb j d ch hj hd
      obtain ⟨k', g1, g2, g3⟩ := look h1
      refine ⟨k', g1, ?_⟩
      rw [g3, h2]
      rintro rfl
      have hl : inLock d.pc = true ∧ chanOf d.pc = some ch := by cases hdp : d.pc <;> simp_all [emptyPc, inLock, chanOf]
      obtain ⟨k2, e1, e2⟩ := h.ref j d ch hj hl.2
      rw [hc0] at e1; cases e1
      exact hne (lock_one h hj hi hl.1 (by rw [hp]; rfl) (e2.symm.trans r2))
  · intro j d ch hj hd
    replace hj := get_set_cases hj
    rcases hj with ⟨rfl, rfl⟩ | ⟨hne, hj⟩
    · cases hd
    · obtain ⟨h1, h2⟩ := h.fr j d ch hj hd
      refine ⟨h1, fun a e ha hae => ?_⟩
      replace ha := get_set_cases ha
      rcases ha with ⟨rfl, rfl⟩ | ⟨_, ha⟩
      · have := h2 a c hi hae
        rw [hp] at this
        exact this
      · exact h2 a e ha hae
  · intro j d ch hj hd
    replace hj := get_set_cases hj
    rcases hj with ⟨rfl, rfl⟩ | ⟨_, hj⟩
    · refine h.out j c ch hi ?_
      rw [hp]; exact hd
    · exact h.out j d ch hj hd
  · intro p
    have h1 := h.occ p
    have h3 := cnt_set (p := hasGot p) (c' := { c with pc := .close ch0 }) hi
    have h4 : hasGot p { c with pc := .close ch0 } = hasGot p c := by simp [hasGot, hp, gotOf]
    have h5 := cnt_set (p := holdsBuf p) (c' := { k0 with buf := some i }) hc0
    have h6 : holdsBuf p k0 = false := by simp [holdsBuf, hb0]
    rw [h4] at h3
    rw [h6] at h5
    simp only [Await.occ] at h1 ⊢
    by_cases e : p = i
    · subst e
      have e1 : sentN s.log p = 0 := by
        simp only [sentN, hi, Option.map_some, Option.getD_some, sent, hp]
        cases c.kind <;> rfl
      have e2 : sentN (s.log.set p { c with pc := .close ch0 }) p = 1 := by
        simp only [sentN, get_set_self hi, Option.map_some, Option.getD_some, sent]
        cases hk : c.kind <;> simp_all [isPut]
      have e3 : holdsBuf p { k0 with buf := some p } = true := by simp [holdsBuf]
      rw [e3] at h5
      simp only [Bool.toNat_true, Bool.toNat_false] at h5
      omega
    · have e2 : sentN (s.log.set i { c with pc := .close ch0 }) p = sentN s.log p := by
        simp only [sentN, get_set_ne e]
      have e3 : holdsBuf p { k0 with buf := some i } = false := by simp [holdsBuf, Ne.symm e]
      rw [e3] at h5
      omega
  · intro ch k p hc hb
    replace hc := get_set_cases hc
    rcases hc with ⟨rfl, rfl⟩ | ⟨_, hc⟩
    · simp only [Option.some.injEq] at hb
      subst hb
      exact ⟨_, get_set_self hi, hput, r2.symm⟩
    · obtain ⟨d, d1, d2, d3⟩ := h.bi ch k p hc hb
      exact put_set hi rfl rfl d1 d2 d3
  · intro j d p hj hd
    replace hj := get_set_cases hj
    rcases hj with ⟨rfl, rfl⟩ | ⟨_, hj⟩
    · cases hd
    · obtain ⟨e, e1, e2, e3⟩ := h.gi j d p hj hd
      exact put_set hi rfl rfl e1 e2 e3
  · intro j d hj
    replace hj := get_set_cases hj
    rcases hj with ⟨rfl, rfl⟩ | ⟨_, hj⟩
    · cases hk : c.kind <;> simp_all [kindOk, isPut]
    · exact h.ko j d hj

/-- The value is received. -/
theorem inv_recv {ix : Id → Nat} {s : St V} (h : Inv ix s) {i ch0 p0 : Nat} {c : Call V} {k0 : Chan} (hi : s.log[i]? = some c) (hp : c.pc = .select ch0)
    (hc0 : s.chans[ch0]? = some k0) (hb0 : k0.buf = some p0) :
    Inv ix { s with chans := s.chans.set ch0 { k0 with buf := none }, log := s.log.set i { c with pc := .wDel (.got p0) } } := by
  have hko : kindOk ({ c with pc := .wDel (.got p0) } : Call V) = true := by
    have := h.ko i c hi
    cases hk : c.kind <;> simp_all [kindOk]
  obtain ⟨k1, r1, r2⟩ := h.ref i c ch0 hi (by rw [hp]; rfl)
  rw [hc0] at r1; cases r1
  have look : ∀ {ch : Nat} {k : Chan}, s.chans[ch]? = some k → ∃ k', (s.chans.set ch0 { k0 with buf := none })[ch]? = some k' ∧ k'.idx = k.idx ∧
      (k.buf = none → k'.buf = none) := by
    intro ch k hk
    by_cases e : ch = ch0
    · subst e
      rw [hc0] at hk; cases hk
      exact ⟨_, get_set_self hc0, rfl, fun _ => rfl⟩
    · exact ⟨k, by rw [get_set_ne e]; exact hk, rfl, id⟩
  constructor
  · intro k
    have := cnt_set (p := inL ix k) (c' := { c with pc := .wDel (.got p0) }) hi
    have h1 := h.lk k
    have h2 := same_lk (ix := ix) (s := s) (c := c) (c' := { c with pc := .wDel (.got p0) }) rfl (by simp [inLock, hp]) k
    simp only at *
    omega
  · intro x ch hc
    obtain ⟨k, h1, h2, h3⟩ := h.mv x ch hc
    obtain ⟨k', g1, g2, g3⟩ := look h1
    exact ⟨k', g1, g2.trans h2, g3 h3⟩
  · intro j d ch hj hd
    replace hj := get_set_cases hj
    rcases hj with ⟨rfl, rfl⟩ | ⟨_, hj⟩
    · cases hd
    · obtain ⟨k, h1, h2⟩ := h.ref j d ch hj hd
      obtain ⟨k', g1, g2, _⟩ := look h1
      exact ⟨k', g1, g2.trans h2⟩
  · intro j d ch hj hd
    replace hj := get_set_cases hj
    rcases hj with ⟨rfl, rfl⟩ | ⟨_, hj⟩
    · cases hd
    · obtain ⟨k, h1, h2⟩ := h.nb j d ch hj hd
      obtain ⟨k', g1, _, g3⟩ := look h1
      exact ⟨k', g1, g3 h2⟩
  · intro j d ch hj hd
    replace hj := get_set_cases hj
    rcases hj with ⟨rfl, rfl⟩ | ⟨hne, hj⟩
    · cases hd
    · obtain ⟨h1, h2⟩ := h.fr j d ch hj hd
      refine ⟨h1, fun a e ha hae => ?_⟩
      replace ha := get_set_cases ha
      rcases ha with ⟨rfl, rfl⟩ | ⟨_, ha⟩
      · simp [chanOf]
      · exact h2 a e ha hae
  · intro j d ch hj hd
    replace hj := get_set_cases hj
    rcases hj with ⟨rfl, rfl⟩ | ⟨_, hj⟩
    · cases hd
    · exact h.out j d ch hj hd
  · intro p
    have h1 := h.occ p
    have h2 := sentN_set (p := p) (c' := { c with pc := .wDel (.got p0) }) hi (by simp [sent, hp])
    have h3 := cnt_set (p := hasGot p) (c' := { c with pc := .wDel (.got p0) }) hi
    have h4 : hasGot p c = false := by simp [hasGot, hp, gotOf]
    have h5 := cnt_set (p := holdsBuf p) (c' := { k0 with buf := none }) hc0
    have h6 : holdsBuf p { k0 with buf := none } = false := by simp [holdsBuf]
    have h7 : holdsBuf p k0 = hasGot p ({ c with pc := .wDel (.got p0) } : Call V) := by simp [holdsBuf, hasGot, gotOf, hb0]
    rw [h4] at h3
    rw [h6, h7] at h5
    simp only [Await.occ] at h1 ⊢
    omega
  · intro ch k p hc hb
    replace hc := get_set_cases hc
    rcases hc with ⟨rfl, rfl⟩ | ⟨_, hc⟩
    · cases hb
    · obtain ⟨d, d1, d2, d3⟩ := h.bi ch k p hc hb
      exact put_set hi rfl rfl d1 d2 d3
  · intro j d p hj hd
    replace hj := get_set_cases hj
    rcases hj with ⟨rfl, rfl⟩ | ⟨_, hj⟩
    · simp only [gotOf, Option.some.injEq] at hd
      subst hd
      obtain ⟨e, e1, e2, e3⟩ := h.bi ch0 k0 p0 hc0 hb0
      exact put_set hi rfl rfl e1 e2 (e3.trans r2)
    · obtain ⟨e, e1, e2, e3⟩ := h.gi j d p hj hd
      exact put_set hi rfl rfl e1 e2 e3
  · intro j d hj
    replace hj := get_set_cases hj
    rcases hj with ⟨rfl, rfl⟩ | ⟨_, hj⟩
    · exact hko
    · exact h.ko j d hj

theorem ko_wait {c : Call V} (h : kindOk c = true) {pc : Pc} (hw : ∃ a b, c.kind = .wait a b)
    (hp : ∀ a b, kindOk (V := V) ⟨.wait a b, c.idx, pc⟩ = true) : kindOk { c with pc := pc } = true := by
  obtain ⟨a, b, hk⟩ := hw
  have := hp a b
  rw [← hk] at this
  exact this

theorem inv_step {ix : Id → Nat} {s t : St V} (h : Inv ix s) {i : Nat} {c : Call V} (hi : s.log[i]? = some c)
    (ht : step ix s i c = some t) : Inv ix t := by
  have hko := h.ko i c hi
  have hlk := h.lk (ix c.idx)
  unfold step at ht
  cases hp : c.pc <;> simp only [hp] at ht
  case wEnter =>
    split at ht <;> cases ht
    rename_i hl
    have hl' : s.lk (ix c.idx) = false := by simpa using hl
    refine inv_keep h hi rfl ?_ ?_ ?_ ?_ ?_ ?_ ?_ ?_ ?_ ?_ ?_ ?_
    exacts [rfl, rfl, upd_lk rfl (by simp [inLock, hp, hl']), fun _ _ h => h, rfl, by cases hk : c.kind <;> simp_all [kindOk], by simp [chanOf],
      by simp [emptyPc], by simp, by simp [outPc], by simp [gotOf, hp], by simp [sent, hp]]
  case wLocked =>
    split at ht <;> cases ht
    · rename_i ch hm
      refine inv_keep h hi rfl ?_ ?_ ?_ ?_ ?_ ?_ ?_ ?_ ?_ ?_ ?_ ?_
      exacts [rfl, rfl, same_lk rfl (by simp [inLock, hp]), fun _ _ h => h, rfl, by cases hk : c.kind <;> simp_all [kindOk], by simp [chanOf, hm],
        by simp [emptyPc], by simp, by simp [outPc], by simp [gotOf, hp], by simp [sent, hp]]
    · rename_i hm
      exact inv_make h hi hp hm (by cases hk : c.kind <;> simp_all [kindOk])
  case wPut ch =>
    cases ht
    exact inv_put h hi hp (by cases hk : c.kind <;> simp_all [kindOk])
  case wUnlock ch =>
    cases ht
    have hpos := cnt_pos (p := inL ix (ix c.idx)) hi (by simp [inL, hp, inLock])
    rw [hlk] at hpos
    have hl' : s.lk (ix c.idx) = true := by cases e : s.lk (ix c.idx) with | true => rfl | false => rw [e] at hpos; simp at hpos
    refine inv_keep h hi rfl ?_ ?_ ?_ ?_ ?_ ?_ ?_ ?_ ?_ ?_ ?_ ?_
    exacts [rfl, rfl, upd_lk rfl (by simp [inLock, hp, hl']), fun _ _ h => h, rfl, by cases hk : c.kind <;> simp_all [kindOk], by simp [chanOf, hp],
      by simp [emptyPc], by simp, by simp [outPc], by simp [gotOf, hp], by simp [sent, hp]]
  case select ch =>
    split at ht
    · cases ht
    · rename_i k hk
      split at ht
      · rename_i p hb
        cases ht
        exact inv_recv h hi hp hk hb
      · split at ht <;> cases ht
        refine inv_keep h hi rfl ?_ ?_ ?_ ?_ ?_ ?_ ?_ ?_ ?_ ?_ ?_ ?_
        exacts [rfl, rfl, same_lk rfl (by simp [inLock, hp]), fun _ _ h => h, rfl, by cases hk : c.kind <;> simp_all [kindOk], by simp [chanOf],
          by simp [emptyPc], by simp, by simp [outPc], by simp [gotOf, hp], by simp [sent, hp]]
  case wClose ch =>
    split at ht <;> cases ht
    rename_i k hk
    refine inv_keep h hi rfl ?_ ?_ ?_ ?_ ?_ ?_ ?_ ?_ ?_ ?_ ?_ ?_
    exacts [rfl, rfl, same_lk rfl (by simp [inLock, hp]), fun _ _ h => h, close_map hk, by cases hk : c.kind <;> simp_all [kindOk], by simp [chanOf],
      by simp [emptyPc], by simp, by simp [outPc], by simp [gotOf, hp], by simp [sent, hp]]
  case wDel r =>
    cases ht
    refine inv_keep h hi rfl ?_ ?_ ?_ ?_ ?_ ?_ ?_ ?_ ?_ ?_ ?_ ?_
    exacts [rfl, rfl, same_lk rfl (by simp [inLock, hp]), upd_none, rfl, by cases hk : c.kind <;> simp_all [kindOk], by simp [chanOf],
      by simp [emptyPc], by simp, by simp [outPc], by cases r <;> simp [gotOf, hp], by simp [sent, hp]]
  case has n =>
    split at ht
    · cases ht
      refine inv_keep h hi rfl ?_ ?_ ?_ ?_ ?_ ?_ ?_ ?_ ?_ ?_ ?_ ?_
      exacts [rfl, rfl, same_lk rfl (by simp [inLock, hp]), fun _ _ h => h, rfl, by cases hk : c.kind <;> simp_all [kindOk], by simp [chanOf],
        by simp [emptyPc], by simp, by simp [outPc], by simp [gotOf, hp], by simp [sent, hp]]
    · cases n <;> cases ht
      · refine inv_keep h hi rfl ?_ ?_ ?_ ?_ ?_ ?_ ?_ ?_ ?_ ?_ ?_ ?_
        exacts [rfl, rfl, same_lk rfl (by simp [inLock, hp]), fun _ _ h => h, rfl, by cases hk : c.kind <;> simp_all [kindOk], by simp [chanOf],
          by simp [emptyPc], by simp, by simp [outPc], by simp [gotOf, hp], by simp [sent, hp]]
      · refine inv_keep h hi rfl ?_ ?_ ?_ ?_ ?_ ?_ ?_ ?_ ?_ ?_ ?_ ?_
        exacts [rfl, rfl, same_lk rfl (by simp [inLock, hp]), fun _ _ h => h, rfl, by cases hk : c.kind <;> simp_all [kindOk], by simp [chanOf],
          by simp [emptyPc], by simp, by simp [outPc], by simp [gotOf, hp], by simp [sent, hp]]
  case lock =>
    split at ht <;> cases ht
    rename_i hl
    have hl' : s.lk (ix c.idx) = false := by simpa using hl
    refine inv_keep h hi rfl ?_ ?_ ?_ ?_ ?_ ?_ ?_ ?_ ?_ ?_ ?_ ?_
    exacts [rfl, rfl, upd_lk rfl (by simp [inLock, hp, hl']), fun _ _ h => h, rfl, by cases hk : c.kind <;> simp_all [kindOk], by simp [chanOf],
      by simp [emptyPc], by simp, by simp [outPc], by simp [gotOf, hp], by simp [sent, hp]]
  case get =>
    split at ht <;> cases ht
    · rename_i ch hm
      refine inv_keep h hi rfl ?_ ?_ ?_ ?_ ?_ ?_ ?_ ?_ ?_ ?_ ?_ ?_
      exacts [rfl, rfl, same_lk rfl (by simp [inLock, hp]), fun _ _ h => h, rfl, by cases hk : c.kind <;> simp_all [kindOk], by simp [chanOf, hm],
        by simp [emptyPc, hm], by simp, by simp [outPc], by simp [gotOf, hp], by simp [sent, hp]]
    · refine inv_keep h hi rfl ?_ ?_ ?_ ?_ ?_ ?_ ?_ ?_ ?_ ?_ ?_ ?_
      exacts [rfl, rfl, same_lk rfl (by simp [inLock, hp]), fun _ _ h => h, rfl, by cases hk : c.kind <;> simp_all [kindOk], by simp [chanOf],
        by simp [emptyPc], by simp, by simp [outPc], by simp [gotOf, hp], by simp [sent, hp]]
  case del ch =>
    cases ht
    cases hk : c.kind
    case wait => simp [kindOk, hp, hk] at hko
    all_goals
      refine inv_keep h hi rfl ?_ ?_ ?_ ?_ ?_ ?_ ?_ ?_ ?_ ?_ ?_ ?_
      exacts [by simp [hk], rfl, same_lk rfl (by simp [inLock, hp]), upd_none, rfl, by simp_all [kindOk], by simp [chanOf, hp],
        by simp [emptyPc, hp], by simp, by simp [St.goto, upd], by simp [gotOf, hp], by simp [sent, hp, hk]]
  case send ch =>
    split at ht
    · cases ht
    · rename_i k hk
      split at ht
      · cases ht
        refine inv_keep h hi rfl ?_ ?_ ?_ ?_ ?_ ?_ ?_ ?_ ?_ ?_ ?_ ?_
        exacts [rfl, rfl, same_lk rfl (by simp [inLock, hp]), fun _ _ h => h, rfl, by cases hk : c.kind <;> simp_all [kindOk], by simp [chanOf],
          by simp [emptyPc], by simp, by simp [outPc], by simp [gotOf, hp], by simp [sent, hp]]
      · split at ht <;> cases ht
        rename_i hb
        exact inv_send h hi hp hk hb
  case close ch =>
    split at ht
    · cases ht
    · rename_i k hk
      split at ht <;> cases ht
      · refine inv_keep h hi rfl ?_ ?_ ?_ ?_ ?_ ?_ ?_ ?_ ?_ ?_ ?_ ?_
        exacts [rfl, rfl, same_lk rfl (by simp [inLock, hp]), fun _ _ h => h, rfl, by cases hk : c.kind <;> simp_all [kindOk], by simp [chanOf],
          by simp [emptyPc], by simp, by simp [outPc], by simp [gotOf, hp], by cases hk : c.kind <;> simp_all [sent]]
      · refine inv_keep h hi rfl ?_ ?_ ?_ ?_ ?_ ?_ ?_ ?_ ?_ ?_ ?_ ?_
        exacts [rfl, rfl, same_lk rfl (by simp [inLock, hp]), fun _ _ h => h, close_map hk, by cases hk : c.kind <;> simp_all [kindOk], by simp [chanOf],
          by simp [emptyPc], by simp, by simp [outPc], by simp [gotOf, hp], by cases hk : c.kind <;> simp_all [sent]]
  case unlock err =>
    cases ht
    have hpos := cnt_pos (p := inL ix (ix c.idx)) hi (by simp [inL, hp, inLock])
    rw [hlk] at hpos
    have hl' : s.lk (ix c.idx) = true := by cases e : s.lk (ix c.idx) with | true => rfl | false => rw [e] at hpos; simp at hpos
    refine inv_keep h hi rfl ?_ ?_ ?_ ?_ ?_ ?_ ?_ ?_ ?_ ?_ ?_ ?_
    exacts [rfl, rfl, upd_lk rfl (by simp [inLock, hp, hl']), fun _ _ h => h, rfl, by cases hk : c.kind <;> simp_all [kindOk], by simp [chanOf],
      by simp [emptyPc], by simp, by simp [outPc], by simp [gotOf, hp], by cases hk : c.kind <;> simp_all [sent]]
  case wRet => cases ht
  case ret => cases ht

/-- A call begins. -/
theorem inv_start {ix : Id → Nat} {s : St V} (h : Inv ix s) {c : Call V} (hk : kindOk c = true) (h1 : inLock c.pc = false) (h2 : chanOf c.pc = none)
    (h3 : gotOf c.pc = none) (h4 : sent c = false) : Inv ix { s with log := s.log ++ [c] } := by
  have n1 : ∀ ch, ¬ emptyPc ch c.pc := fun ch hx => by cases hp : c.pc <;> simp_all [emptyPc, chanOf]
  have n2 : ∀ ch, ¬ outPc ch c.pc := fun ch hx => by cases hp : c.pc <;> simp_all [outPc, chanOf]
  have ap : ∀ {p : Nat} {d : Call V}, s.log[p]? = some d → (s.log ++ [c])[p]? = some d := fun hd => by
    rw [List.getElem?_append_left (List.getElem?_eq_some_iff.1 hd).1]; exact hd
  constructor
  · intro k
    have := h.lk k
    have e : inL ix k c = false := by simp [inL, h1]
    simp [e, this]
  · exact h.mv
  · intro j d ch hj hd
    rcases get_app hj with ⟨hj, _⟩ | ⟨_, rfl⟩
    · exact h.ref j d ch hj hd
    · rw [h2] at hd; cases hd
  · intro j d ch hj hd
    rcases get_app hj with ⟨hj, _⟩ | ⟨_, rfl⟩
    · exact h.nb j d ch hj hd
    · exact absurd hd (n1 ch)
  · intro j d ch hj hd
    rcases get_app hj with ⟨hj, _⟩ | ⟨_, rfl⟩
    · obtain ⟨f1, f2⟩ := h.fr j d ch hj hd
      refine ⟨f1, fun a e ha hae => ?_⟩
      rcases get_app ha with ⟨ha, _⟩ | ⟨_, rfl⟩
      · exact f2 a e ha hae
      · rw [h2]; simp
    · rw [hd] at h2; cases h2
  · intro j d ch hj hd
    rcases get_app hj with ⟨hj, _⟩ | ⟨_, rfl⟩
    · exact h.out j d ch hj hd
    · exact absurd hd (n2 ch)
  · intro p
    have := h.occ p
    have e : hasGot p c = false := by simp [hasGot, h3]
    have e2 : sentN s.log p ≤ sentN (s.log ++ [c]) p := by
      unfold sentN
      cases hp : s.log[p]? with
      | none => simp
      | some d => rw [ap hp]; exact Nat.le_refl _
    simp only [Await.occ, List.countP_append, List.countP_singleton, e] at this ⊢
    simp only [Bool.false_eq_true, if_false]
    omega
  · intro ch k p hc hb
    obtain ⟨d, d1, d2⟩ := h.bi ch k p hc hb
    exact ⟨d, ap d1, d2⟩
  · intro j d p hj hd
    rcases get_app hj with ⟨hj, _⟩ | ⟨_, rfl⟩
    · obtain ⟨e, e1, e2⟩ := h.gi j d p hj hd
      exact ⟨e, ap e1, e2⟩
    · rw [h3] at hd; cases hd
  · intro j d hj
    rcases get_app hj with ⟨hj, _⟩ | ⟨_, rfl⟩
    · exact h.ko j d hj
    · exact hk

/-- A timeout or a cancellation. -/
theorem inv_abort {ix : Id → Nat} {s : St V} (h : Inv ix s) {i ch : Nat} {c : Call V} (hi : s.log[i]? = some c) (hp : c.pc = .select ch) :
    Inv ix (s.goto i c (.wClose ch)) := by
  have hko := h.ko i c hi
  refine inv_keep h hi rfl ?_ ?_ ?_ ?_ ?_ ?_ ?_ ?_ ?_ ?_ ?_ ?_
  exacts [rfl, rfl, same_lk rfl (by simp [inLock, hp]), fun _ _ h => h, rfl, by cases hk : c.kind <;> simp_all [kindOk], by simp [chanOf, hp],
    by simp [emptyPc], by simp, by simp [outPc], by simp [gotOf, hp], by simp [sent, hp]]

/-- What an action does. -/
theorem act_cases {ix : Id → Nat} {loops : Nat} {s t : St V} {a : Act V} (h : act ix loops s a = some t) :
    (∃ timed ctx x, a = .wait timed ctx x ∧ t = { s with log := s.log ++ [⟨.wait timed ctx, x, .wEnter⟩] }) ∨
    (∃ x v, a = .put x v ∧ t = { s with log := s.log ++ [⟨.put v, x, .has loops⟩] }) ∨
    (∃ x, a = .close x ∧ t = { s with log := s.log ++ [⟨.close, x, .has loops⟩] }) ∨
    (∃ i c, a = .step i ∧ s.log[i]? = some c ∧ step ix s i c = some t) ∨
    (∃ i c ch, (a = .timeout i ∨ a = .cancel i) ∧ s.log[i]? = some c ∧ c.pc = .select ch ∧ (∃ b, c.kind = .wait true b) ∧ t = s.goto i c (.wClose ch)) := by
  cases a with
  | wait timed ctx x => simp only [act, Option.some.injEq] at h; exact .inl ⟨_, _, _, rfl, h.symm⟩
  | put x v => simp only [act, Option.some.injEq] at h; exact .inr (.inl ⟨_, _, rfl, h.symm⟩)
  | close x => simp only [act, Option.some.injEq] at h; exact .inr (.inr (.inl ⟨_, rfl, h.symm⟩))
  | step i =>
    simp only [act] at h
    cases hi : s.log[i]? with
    | none => simp [hi] at h
    | some c => simp only [hi, Option.bind_some] at h; exact .inr (.inr (.inr (.inl ⟨i, c, rfl, hi, h⟩)))
  | timeout i =>
    simp only [act] at h
    cases hi : s.log[i]? with
    | none => simp [hi] at h
    | some c =>
      simp only [hi, Option.bind_some] at h
      split at h <;> cases h
      rename_i b ch hk hp
      exact .inr (.inr (.inr (.inr ⟨i, c, ch, .inl rfl, hi, hp, ⟨b, hk⟩, rfl⟩)))
  | cancel i =>
    simp only [act] at h
    cases hi : s.log[i]? with
    | none => simp [hi] at h
    | some c =>
      simp only [hi, Option.bind_some] at h
      split at h <;> cases h
      rename_i ch hk hp
      exact .inr (.inr (.inr (.inr ⟨i, c, ch, .inr rfl, hi, hp, ⟨true, hk⟩, rfl⟩)))

theorem inv_act {ix : Id → Nat} {loops : Nat} {s t : St V} (h : Inv ix s) {a : Act V} (ht : act ix loops s a = some t) : Inv ix t := by
  rcases act_cases ht with ⟨_, _, _, _, rfl⟩ | ⟨_, _, _, rfl⟩ | ⟨_, _, rfl⟩ | ⟨i, c, _, hi, hs⟩ | ⟨i, c, ch, _, hi, hp, _, rfl⟩
  · exact inv_start h rfl rfl rfl rfl rfl
  · exact inv_start h rfl rfl rfl rfl rfl
  · exact inv_start h rfl rfl rfl rfl rfl
  · exact inv_step h hi hs
  · exact inv_abort h hi hp

theorem inv_exec {ix : Id → Nat} {loops : Nat} {s t : St V} (h : Inv ix s) {as : List (Act V)} (ht : exec ix loops s as = some t) : Inv ix t := by
  induction as generalizing s with
  | nil => simp only [exec, Option.some.injEq] at ht; subst ht; exact h
  | cons a as ih =>
    simp only [exec] at ht
    cases ha : act ix loops s a with
    | none => simp [ha] at ht
    | some u => simp only [ha, Option.bind_some] at ht; exact ih (inv_act h ha) ht

end Gofer.Await
