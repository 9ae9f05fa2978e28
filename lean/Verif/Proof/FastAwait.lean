import Verif.Spec.FastAwait
import Verif.Proof.Count
import Mathlib.Data.List.Basic

/-! # `FastAwait`: helper lemmas -/
namespace Gofer.FastAwait
open Gofer.Count
open Gofer.Await (Id Chan Res Kind upd)

variable {V : Type}

/-- The channel a call works on. -/
def chanOf : Pc → Option Nat
  | .wPut ch | .select ch | .wClose ch | .del ch | .send ch | .close ch _ => some ch
  | _ => none
/-- The channel a `Wait` works on. -/
def wchan : Pc → Option Nat
  | .wPut ch | .select ch | .wClose ch => some ch
  | _ => none
/-- The channel a `Wait` will receive from. -/
def selPc : Pc → Option Nat
  | .wPut ch | .select ch => some ch
  | _ => none
def gotOf : Pc → Option Nat
  | .wAdd (.got p) | .wDel (.got p) | .wRet (.got p) => some p
  | _ => none
def zeroPc : Pc → Prop
  | .wAdd .zero | .wDel .zero | .wRet .zero => True
  | _ => False
def isPut (c : Call V) : Bool := match c.kind with | .put _ => true | _ => false
/-- May have sent its value. -/
def sent (c : Call V) : Bool :=
  match c.kind, c.pc with
  | .put _, .close _ _ | .put _, .ret _ => true
  | _, _ => false
def kindOk (c : Call V) : Bool :=
  match c.kind, c.pc with
  | .wait _ _, .wPut _ | .wait _ _, .select _ | .wait _ _, .wClose _ | .wait _ _, .wAdd _ | .wait _ _, .wDel _ | .wait _ _, .wRet _ => true
  | .put _, .get _ | .put _, .isDel _ | .put _, .del _ | .put _, .send _ | .put _, .close _ _ | .put _, .ret _ => true
  | .close, .get _ | .close, .isDel _ | .close, .del _ | .close, .close _ _ | .close, .ret _ => true
  | _, _ => false

def holdsBuf (p : Nat) (k : Chan) : Bool := k.buf == some p
def hasGot (p : Nat) (c : Call V) : Bool := gotOf c.pc == some p
/-- Where the value of call `p` is: in channels or with waiters. -/
def occ (s : St V) (p : Nat) : Nat := s.chans.countP (holdsBuf p) + s.log.countP (hasGot p)
def sentN (log : List (Call V)) (p : Nat) : Nat := ((log[p]?).map fun c => (sent c).toNat).getD 0
def W (s : St V) (ch : Nat) : Prop := ∃ (j : Nat) (d : Call V), s.log[j]? = some d ∧ selPc d.pc = some ch
def closeCall (x : Id) (log : List (Call V)) : Prop := ∃ (j : Nat) (d : Call V), log[j]? = some d ∧ d.kind = .close ∧ d.idx = x

structure Inv (s : St V) : Prop where
  ref : ∀ (i : Nat) (c : Call V) (ch : Nat), s.log[i]? = some c → chanOf c.pc = some ch → ∃ k, s.chans[ch]? = some k ∧ k.idx = c.idx
  mv : ∀ x ch, s.m x = some ch → ∃ k, s.chans[ch]? = some k ∧ k.idx = x
  own : ∀ (i j : Nat) (c d : Call V) (ch : Nat), s.log[i]? = some c → s.log[j]? = some d → wchan c.pc = some ch → wchan d.pc = some ch → i = j
  fr : ∀ (i : Nat) (c : Call V) (ch : Nat), s.log[i]? = some c → c.pc = .wPut ch → (∀ x, s.m x ≠ some ch) ∧
    (∀ (j : Nat) (d : Call V), s.log[j]? = some d → j ≠ i → chanOf d.pc ≠ some ch) ∧ ∃ k, s.chans[ch]? = some k ∧ k.buf = none ∧ k.closed = false
  occ : ∀ p, occ s p ≤ sentN s.log p
  bi : ∀ (ch : Nat) (k : Chan) (p : Nat), s.chans[ch]? = some k → k.buf = some p → ∃ d, s.log[p]? = some d ∧ isPut d = true ∧ d.idx = k.idx
  gi : ∀ (i : Nat) (c : Call V) (p : Nat), s.log[i]? = some c → gotOf c.pc = some p → ∃ d, s.log[p]? = some d ∧ isPut d = true ∧ d.idx = c.idx
  ko : ∀ (i : Nat) (c : Call V), s.log[i]? = some c → kindOk c = true
  bc : ∀ (ch : Nat) (k : Chan) (p : Nat), s.chans[ch]? = some k → k.buf = some p → k.closed = false → ∃ d, s.log[p]? = some d ∧ d.pc = .close ch false
  sb : ∀ (i : Nat) (c : Call V) (ch : Nat), s.log[i]? = some c → isPut c = true → c.pc = .close ch false → W s ch → ∃ k, s.chans[ch]? = some k ∧ k.buf ≠ none
  z1 : ∀ (ch : Nat) (k : Chan), W s ch → s.chans[ch]? = some k → k.closed = true → k.buf = none → closeCall k.idx s.log
  z2 : ∀ (i : Nat) (c : Call V), s.log[i]? = some c → zeroPc c.pc → closeCall c.idx s.log
  cp : ∀ (i : Nat) (c : Call V) (ch : Nat), s.log[i]? = some c → c.pc = .close ch true → ∃ k, s.chans[ch]? = some k ∧ k.closed = true

theorem inv_new : Inv (new V) := by
  constructor <;> intros <;> simp_all [new, FastAwait.occ, W]

theorem put_set {log : List (Call V)} {i p : Nat} {c c' d : Call V} {x : Id} (hi : log[i]? = some c) (hk : c'.kind = c.kind) (hx : c'.idx = c.idx)
    (hd : log[p]? = some d) (h1 : isPut d = true) (h2 : d.idx = x) : ∃ e, (log.set i c')[p]? = some e ∧ isPut e = true ∧ e.idx = x := by
  by_cases e : p = i
  · subst e
    rw [hi] at hd; cases hd
    exact ⟨c', get_set_self hi, by simpa [isPut, hk] using h1, hx.trans h2⟩
  · exact ⟨d, by rw [get_set_ne e]; exact hd, h1, h2⟩

theorem closeCall_set {x : Id} {log : List (Call V)} {i : Nat} {c c' : Call V} (hi : log[i]? = some c) (hk : c'.kind = c.kind) (hx : c'.idx = c.idx)
    (h : closeCall x log) : closeCall x (log.set i c') := by
  obtain ⟨j, d, hj, h1, h2⟩ := h
  by_cases e : j = i
  · subst e
    rw [hi] at hj; cases hj
    exact ⟨j, c', get_set_self hi, hk.trans h1, hx.trans h2⟩
  · exact ⟨j, d, by rw [get_set_ne e]; exact hj, h1, h2⟩

theorem sentN_set {log : List (Call V)} {i p : Nat} {c c' : Call V} (hi : log[i]? = some c) (h : sent c = true → sent c' = true) :
    sentN log p ≤ sentN (log.set i c') p := by
  unfold sentN
  by_cases e : p = i
  · subst e
    rw [hi, get_set_self hi]
    cases h1 : sent c <;> simp_all
  · rw [get_set_ne e]
    exact Nat.le_refl _

theorem selPc_w {pc : Pc} {ch : Nat} (h : selPc pc = some ch) : wchan pc = some ch := by cases pc <;> simp_all [selPc, wchan]
theorem wchan_c {pc : Pc} {ch : Nat} (h : wchan pc = some ch) : chanOf pc = some ch := by cases pc <;> simp_all [chanOf, wchan]

theorem W_back {s t : St V} {i : Nat} {c c' : Call V} (hi : s.log[i]? = some c) (hlog : t.log = s.log.set i c')
    (hsel : ∀ ch, selPc c'.pc = some ch → selPc c.pc = some ch) {ch : Nat} (h : W t ch) : W s ch := by
  obtain ⟨j, d, hj, hd⟩ := h
  rw [hlog] at hj
  replace hj := get_set_cases hj
  rcases hj with ⟨rfl, rfl⟩ | ⟨_, hj⟩
  · exact ⟨j, c, hi, hsel ch hd⟩
  · exact ⟨j, d, hj, hd⟩

/-- A step that leaves the channels alone. -/
theorem inv_keep {s t : St V} (h : Inv s) {i : Nat} {c c' : Call V} (hi : s.log[i]? = some c)
    (hlog : t.log = s.log.set i c') (hk : c'.kind = c.kind) (hx : c'.idx = c.idx) (hch : t.chans = s.chans)
    (hm : ∀ x ch, t.m x = some ch → s.m x = some ch ∨ (x = c.idx ∧ c.pc = .wPut ch)) (hko : kindOk c' = true)
    (href : ∀ ch, chanOf c'.pc = some ch → chanOf c.pc = some ch ∨ s.m c.idx = some ch)
    (hw : ∀ ch, wchan c'.pc = some ch → wchan c.pc = some ch) (hsel : ∀ ch, selPc c'.pc = some ch → selPc c.pc = some ch)
    (hnp : ∀ ch, c'.pc ≠ .wPut ch) (hgot : gotOf c'.pc = gotOf c.pc) (hsent : sent c = true → sent c' = true)
    (hbc : ∀ ch, c.pc = .close ch false → ∃ k, s.chans[ch]? = some k ∧ k.closed = true)
    (hsb : ∀ ch, isPut c = true → c'.pc ≠ .close ch false)
    (hz : zeroPc c'.pc → zeroPc c.pc ∨ closeCall c.idx s.log)
    (hcp : ∀ ch, c'.pc = .close ch true → ∃ k, s.chans[ch]? = some k ∧ k.closed = true) : Inv t := by
  have hW : ∀ {ch}, W t ch → W s ch := W_back hi hlog hsel
  have hcc : ∀ {x}, closeCall x s.log → closeCall x t.log := fun hc => by rw [hlog]; exact closeCall_set hi hk hx hc
  constructor
  · intro j d ch hj hd
    rw [hlog] at hj; rw [hch]
    replace hj := get_set_cases hj
    rcases hj with ⟨rfl, rfl⟩ | ⟨_, hj⟩
    · rw [hx]
      rcases href ch hd with hr | hr
      · exact h.ref j c ch hi hr
      · exact h.mv _ _ hr
    · exact h.ref j d ch hj hd
  · intro x ch hc
    rw [hch]
    replace hc := hm x ch hc
    rcases hc with hc | ⟨rfl, hc⟩
    · exact h.mv x ch hc
    · exact h.ref i c ch hi (by rw [hc]; rfl)
  · have low : ∀ {a : Nat} {e : Call V} {ch : Nat}, t.log[a]? = some e → wchan e.pc = some ch → ∃ e', s.log[a]? = some e' ∧ wchan e'.pc = some ch := by
      intro a e ch ha he
      rw [hlog] at ha
      replace ha := get_set_cases ha
      rcases ha with ⟨rfl, rfl⟩ | ⟨_, ha⟩
      · exact ⟨c, hi, hw ch he⟩
      · exact ⟨e, ha, he⟩
    intro a b e f ch ha hb he hf
    obtain ⟨e', a1, a2⟩ := low ha he
    obtain ⟨f', b1, b2⟩ := low hb hf
    exact h.own a b e' f' ch a1 b1 a2 b2
  · intro j d ch hj hd
    rw [hlog] at hj
    replace hj := get_set_cases hj
    rcases hj with ⟨rfl, rfl⟩ | ⟨hne, hj⟩
    · exact absurd hd (hnp ch)
    · obtain ⟨h1, h2, h3⟩ := h.fr j d ch hj hd
      refine ⟨fun x hc => ?_, fun a e ha hae => ?_, by rw [hch]; exact h3⟩
      · rcases hm x ch hc with hc | ⟨_, hc⟩
        · exact h1 x hc
        · exact h2 i c hi (Ne.symm hne) (by rw [hc]; rfl)
      · rw [hlog] at ha
        replace ha := get_set_cases ha
        rcases ha with ⟨rfl, rfl⟩ | ⟨_, ha⟩
        · intro hc
          rcases href ch hc with hr | hr
          · exact h2 a c hi hae hr
          · exact h1 _ hr
        · exact h2 a e ha hae
  · intro p
    have h1 := h.occ p
    have h2 := sentN_set (p := p) hi hsent
    have h3 := cnt_set (p := hasGot p) (c' := c') hi
    have h4 : hasGot p c' = hasGot p c := by simp [hasGot, hgot]
    rw [h4] at h3
    simp only [FastAwait.occ, hlog, hch] at h1 ⊢
    omega
  · intro ch k p hc hp
    rw [hch] at hc
    obtain ⟨d, d1, d2, d3⟩ := h.bi ch k p hc hp
    rw [hlog]
    exact put_set hi hk hx d1 d2 d3
  · intro j d p hj hd
    rw [hlog] at hj ⊢
    have : ∃ e, s.log[p]? = some e ∧ isPut e = true ∧ e.idx = d.idx := by
      replace hj := get_set_cases hj
      rcases hj with ⟨rfl, rfl⟩ | ⟨_, hj⟩
      · rw [hx]; exact h.gi j c p hi (hgot ▸ hd)
      · exact h.gi j d p hj hd
    obtain ⟨e, e1, e2, e3⟩ := this
    exact put_set hi hk hx e1 e2 e3
  · intro j d hj
    rw [hlog] at hj
    replace hj := get_set_cases hj
    rcases hj with ⟨rfl, rfl⟩ | ⟨_, hj⟩
    · exact hko
    · exact h.ko j d hj
  · intro ch k p hc hp hcl
    rw [hch] at hc
    obtain ⟨d, d1, d2⟩ := h.bc ch k p hc hp hcl
    by_cases e : p = i
    · subst e
      rw [hi] at d1; cases d1
      obtain ⟨k', g1, g2⟩ := hbc ch d2
      rw [hc] at g1; cases g1
      rw [hcl] at g2; cases g2
    · exact ⟨d, by rw [hlog, get_set_ne e]; exact d1, d2⟩
  · intro j d ch hj hd hp hwt
    rw [hlog] at hj; rw [hch]
    replace hj := get_set_cases hj
    rcases hj with ⟨rfl, rfl⟩ | ⟨_, hj⟩
    · exact absurd hp (hsb ch (by simpa [isPut, hk] using hd))
    · exact h.sb j d ch hj hd hp (hW hwt)
  · intro ch k hwt hc hcl hb
    rw [hch] at hc
    exact hcc (h.z1 ch k (hW hwt) hc hcl hb)
  · intro j d hj hd
    rw [hlog] at hj
    replace hj := get_set_cases hj
    rcases hj with ⟨rfl, rfl⟩ | ⟨_, hj⟩
    · rw [hx]
      rcases hz hd with g | g
      · exact hcc (h.z2 j c hi g)
      · exact hcc g
    · exact hcc (h.z2 j d hj hd)
  · intro j d ch hj hd
    rw [hlog] at hj; rw [hch]
    replace hj := get_set_cases hj
    rcases hj with ⟨rfl, rfl⟩ | ⟨_, hj⟩
    · exact hcp ch hd
    · exact h.cp j d ch hj hd

/-- A step that changes the channel the call works on. -/
theorem inv_chan {s t : St V} (h : Inv s) {i ch0 : Nat} {c c' : Call V} {k0 k1 : Chan} (hi : s.log[i]? = some c) (h0 : s.chans[ch0]? = some k0)
    (hlog : t.log = s.log.set i c') (hch : t.chans = s.chans.set ch0 k1) (hk : c'.kind = c.kind) (hx : c'.idx = c.idx) (hm : t.m = s.m) (hkx : k1.idx = k0.idx)
    (hc0 : chanOf c.pc = some ch0) (hc0i : k0.idx = c.idx) (hko : kindOk c' = true) (href : ∀ ch, chanOf c'.pc = some ch → ch = ch0)
    (hw : ∀ ch, wchan c'.pc = some ch → wchan c.pc = some ch) (hsel : ∀ ch, selPc c'.pc = some ch → selPc c.pc = some ch)
    (hnp : ∀ ch, c.pc ≠ .wPut ch) (hnp' : ∀ ch, c'.pc ≠ .wPut ch)
    (hocc : ∀ p, FastAwait.occ t p ≤ sentN t.log p)
    (hbi : ∀ p, k1.buf = some p → k0.buf = some p ∨ (p = i ∧ isPut c = true))
    (hgi : ∀ p, gotOf c'.pc = some p → gotOf c.pc = some p ∨ k0.buf = some p)
    (hbc : ∀ p, k1.buf = some p → k1.closed = false → (p ≠ i ∧ k0.buf = some p ∧ k0.closed = false) ∨ (p = i ∧ c'.pc = .close ch0 false))
    (hsb0 : W t ch0 → k0.buf ≠ none → k1.buf ≠ none) (hsb : ∀ ch, isPut c = true → c'.pc = .close ch false → k1.buf ≠ none)
    (hz1 : W t ch0 → k1.closed = true → k1.buf = none → (k0.closed = true ∧ k0.buf = none) ∨ closeCall c.idx s.log)
    (hz : ¬ zeroPc c'.pc) (hcl : k0.closed = true → k1.closed = true) (hcp : ∀ ch, c'.pc ≠ .close ch true) : Inv t := by
  have hW : ∀ {ch}, W t ch → W s ch := W_back hi hlog hsel
  have hcc : ∀ {x}, closeCall x s.log → closeCall x t.log := fun hc => by rw [hlog]; exact closeCall_set hi hk hx hc
  have fwd : ∀ {ch : Nat} {k : Chan}, s.chans[ch]? = some k → ∃ k', t.chans[ch]? = some k' ∧ k'.idx = k.idx := by
    intro ch k hc
    rw [hch]
    by_cases e : ch = ch0
    · subst e; rw [h0] at hc; cases hc
      exact ⟨k1, get_set_self h0, hkx⟩
    · exact ⟨k, by rw [get_set_ne e]; exact hc, rfl⟩
  have self : t.chans[ch0]? = some k1 := by rw [hch]; exact get_set_self h0
  have other : ∀ {ch : Nat}, ch ≠ ch0 → t.chans[ch]? = s.chans[ch]? := fun e => by rw [hch, get_set_ne e]
  constructor
  · intro j d ch hj hd
    have : ∃ k, s.chans[ch]? = some k ∧ k.idx = d.idx := by
      rw [hlog] at hj
      replace hj := get_set_cases hj
      rcases hj with ⟨rfl, rfl⟩ | ⟨_, hj⟩
      · rw [href ch hd, hx]; exact ⟨k0, h0, hc0i⟩
      · exact h.ref j d ch hj hd
    obtain ⟨k, g1, g2⟩ := this
    obtain ⟨k', g3, g4⟩ := fwd g1
    exact ⟨k', g3, g4.trans g2⟩
  · intro x ch hc
    rw [hm] at hc
    obtain ⟨k, g1, g2⟩ := h.mv x ch hc
    obtain ⟨k', g3, g4⟩ := fwd g1
    exact ⟨k', g3, g4.trans g2⟩
  · have low : ∀ {a : Nat} {e : Call V} {ch : Nat}, t.log[a]? = some e → wchan e.pc = some ch → ∃ e', s.log[a]? = some e' ∧ wchan e'.pc = some ch := by
      intro a e ch ha he
      rw [hlog] at ha
      replace ha := get_set_cases ha
      rcases ha with ⟨rfl, rfl⟩ | ⟨_, ha⟩
      · exact ⟨c, hi, hw ch he⟩
      · exact ⟨e, ha, he⟩
    intro a b e f ch ha hb he hf
    obtain ⟨e', a1, a2⟩ := low ha he
    obtain ⟨f', b1, b2⟩ := low hb hf
    exact h.own a b e' f' ch a1 b1 a2 b2
  · intro j d ch hj hd
    rw [hlog] at hj
    replace hj := get_set_cases hj
    rcases hj with ⟨rfl, rfl⟩ | ⟨hne, hj⟩
    · exact absurd hd (hnp' ch)
    · obtain ⟨h1, h2, h3⟩ := h.fr j d ch hj hd
      have hch0 : ch ≠ ch0 := by rintro rfl; exact h2 i c hi (Ne.symm hne) hc0
      refine ⟨fun x => by rw [hm]; exact h1 x, fun a e ha hae => ?_, by rw [other hch0]; exact h3⟩
      rw [hlog] at ha
      replace ha := get_set_cases ha
      rcases ha with ⟨rfl, rfl⟩ | ⟨_, ha⟩
      · exact fun hc => hch0 (href ch hc)
      · exact h2 a e ha hae
  · exact hocc
  · intro ch k p hc hp
    by_cases e : ch = ch0
    · subst e
      rw [self] at hc; cases hc
      have : ∃ d, s.log[p]? = some d ∧ isPut d = true ∧ d.idx = k1.idx := by
        rcases hbi p hp with g | ⟨rfl, g⟩
        · rw [hkx]; exact h.bi ch k0 p h0 g
        · exact ⟨c, hi, g, by rw [hkx, hc0i]⟩
      obtain ⟨d, d1, d2, d3⟩ := this
      rw [hlog]
      exact put_set hi hk hx d1 d2 d3
    · rw [other e] at hc
      obtain ⟨d, d1, d2, d3⟩ := h.bi ch k p hc hp
      rw [hlog]
      exact put_set hi hk hx d1 d2 d3
  · intro j d p hj hd
    rw [hlog] at hj ⊢
    have : ∃ e, s.log[p]? = some e ∧ isPut e = true ∧ e.idx = d.idx := by
      replace hj := get_set_cases hj
      rcases hj with ⟨rfl, rfl⟩ | ⟨_, hj⟩
      · rw [hx]
        rcases hgi p hd with g | g
        · exact h.gi j c p hi g
        · rw [← hc0i]; exact h.bi ch0 k0 p h0 g
      · exact h.gi j d p hj hd
    obtain ⟨e, e1, e2, e3⟩ := this
    exact put_set hi hk hx e1 e2 e3
  · intro j d hj
    rw [hlog] at hj
    replace hj := get_set_cases hj
    rcases hj with ⟨rfl, rfl⟩ | ⟨_, hj⟩
    · exact hko
    · exact h.ko j d hj
  · intro ch k p hc hp hcl
    by_cases e : ch = ch0
    · subst e
      rw [self] at hc; cases hc
      rcases hbc p hp hcl with ⟨g1, g2, g3⟩ | ⟨rfl, g⟩
      · obtain ⟨d, d1, d2⟩ := h.bc ch k0 p h0 g2 g3
        exact ⟨d, by rw [hlog, get_set_ne g1]; exact d1, d2⟩
      · exact ⟨c', by rw [hlog]; exact get_set_self hi, g⟩
    · rw [other e] at hc
      obtain ⟨d, d1, d2⟩ := h.bc ch k p hc hp hcl
      by_cases e' : p = i
      · subst e'
        rw [hi] at d1; cases d1
        rw [d2] at hc0; cases hc0
        exact absurd rfl e
      · exact ⟨d, by rw [hlog, get_set_ne e']; exact d1, d2⟩
  · intro j d ch hj hd hp hwt
    rw [hlog] at hj
    replace hj := get_set_cases hj
    rcases hj with ⟨rfl, rfl⟩ | ⟨_, hj⟩
    · have := href ch (by rw [hp]; rfl)
      subst this
      exact ⟨k1, self, hsb ch (by simpa [isPut, hk] using hd) hp⟩
    · obtain ⟨k, g1, g2⟩ := h.sb j d ch hj hd hp (hW hwt)
      by_cases e : ch = ch0
      · subst e
        rw [h0] at g1; cases g1
        exact ⟨k1, self, hsb0 hwt g2⟩
      · exact ⟨k, by rw [other e]; exact g1, g2⟩
  · intro ch k hwt hc hcl hb
    by_cases e : ch = ch0
    · subst e
      rw [self] at hc; cases hc
      rcases hz1 hwt hcl hb with ⟨g1, g2⟩ | g
      · rw [hkx]; exact hcc (h.z1 ch k0 (hW hwt) h0 g1 g2)
      · rw [hkx, hc0i]; exact hcc g
    · rw [other e] at hc
      exact hcc (h.z1 ch k (hW hwt) hc hcl hb)
  · intro j d hj hd
    rw [hlog] at hj
    replace hj := get_set_cases hj
    rcases hj with ⟨rfl, rfl⟩ | ⟨_, hj⟩
    · exact absurd hd hz
    · exact hcc (h.z2 j d hj hd)
  · intro j d ch hj hd
    rw [hlog] at hj
    replace hj := get_set_cases hj
    rcases hj with ⟨rfl, rfl⟩ | ⟨_, hj⟩
    · exact absurd hd (hcp ch)
    · obtain ⟨k, g1, g2⟩ := h.cp j d ch hj hd
      by_cases e : ch = ch0
      · subst e
        rw [h0] at g1; cases g1
        exact ⟨k1, self, hcl g2⟩
      · exact ⟨k, by rw [other e]; exact g1, g2⟩

theorem upd_none {m : Id → Option Nat} {x y : Id} {ch : Nat} (h : upd m x none y = some ch) : m y = some ch := by
  unfold upd at h
  split at h
  · cases h
  · exact h

set_option maxHeartbeats 1000000 in
theorem inv_step {has : List Id → Id → Bool} {s t : St V} (h : Inv s) {i : Nat} {c : Call V} (hi : s.log[i]? = some c) (ht : step has s i c = some t) : Inv t := by
  have hko := h.ko i c hi
  have hk : ∀ {pc : Pc}, (∀ q : Call V, q.kind = c.kind → q.pc = pc → kindOk q = true) → kindOk { c with pc := pc } = true := fun hh => hh _ rfl rfl
  unfold step at ht
  cases hp : c.pc <;> simp only [hp] at ht
  case wPut ch =>
    cases ht
    refine inv_keep h hi rfl rfl rfl rfl ?_ ?_ ?_ ?_ ?_ ?_ ?_ ?_ ?_ ?_ ?_ ?_
    · intro x ch' hh
      simp only [St.goto, upd] at hh
      split at hh
      · rename_i e; cases hh; exact .inr ⟨e, hp⟩
      · exact .inl hh
    all_goals first
      | (cases hq : c.kind <;> simp_all [kindOk]; done)
      | simp [hp, chanOf, wchan, selPc, gotOf, sent, zeroPc]
  case select ch =>
    obtain ⟨k0, g1, g2⟩ := h.ref i c ch hi (by rw [hp]; rfl)
    simp only [g1] at ht
    split at ht
    · rename_i p hb
      cases ht
      have nW : ¬ W (St.goto { s with chans := s.chans.set ch { k0 with buf := none } } i c (.wAdd (.got p))) ch := by
        rintro ⟨j, d, hj, hd⟩
        replace hj := get_set_cases hj
        rcases hj with ⟨rfl, rfl⟩ | ⟨hne, hj⟩
        · cases hd
        · exact hne (h.own j i d c ch hj hi (selPc_w hd) (by rw [hp]; rfl))
      refine inv_chan (k1 := { k0 with buf := none }) h hi g1 rfl rfl rfl rfl rfl rfl (by rw [hp]; rfl) g2 ?_ ?_ ?_ ?_ ?_ ?_ ?_ ?_ ?_ ?_
        (fun hh => absurd hh nW) ?_ (fun hh => absurd hh nW) ?_ ?_ ?_
      · cases hq : c.kind <;> simp_all [kindOk]
      · simp [chanOf]
      · simp [wchan]
      · simp [selPc]
      · simp [hp]
      · simp
      · intro q
        have h1 := h.occ q
        have h2 := sentN_set (p := q) (c' := { c with pc := .wAdd (.got p) }) hi (by cases c.kind <;> simp [sent, hp])
        have h3 := cnt_set (p := hasGot q) (c' := { c with pc := .wAdd (.got p) }) hi
        have h4 := cnt_set (p := holdsBuf q) (c' := { k0 with buf := none }) g1
        have h5 : hasGot q c = false := by simp [hasGot, hp, gotOf]
        have h6 : hasGot q { c with pc := .wAdd (.got p) } = holdsBuf q k0 := by simp [hasGot, gotOf, holdsBuf, hb]
        have h7 : holdsBuf q { k0 with buf := none } = false := by simp [holdsBuf]
        rw [h5, h6] at h3; rw [h7] at h4
        simp only [Bool.toNat_false] at h3 h4
        show (s.chans.set ch _).countP _ + (s.log.set i _).countP _ ≤ sentN (s.log.set i _) q
        unfold FastAwait.occ at h1
        omega
      · simp
      · intro q hq; simp only [gotOf, Option.some.injEq] at hq; exact .inr (by rw [hb, hq])
      · simp
      · simp
      · simp [zeroPc]
      · exact id
      · simp
    · rename_i hb
      split at ht <;> cases ht
      rename_i hc
      refine inv_keep h hi rfl rfl rfl rfl (fun _ _ => .inl) ?_ ?_ ?_ ?_ ?_ ?_ ?_ ?_ ?_ ?_ ?_
      · cases hq : c.kind <;> simp_all [kindOk]
      · simp [chanOf]
      · simp [wchan]
      · simp [selPc]
      · simp
      · simp [gotOf, hp]
      · simp [sent, hp]
      · simp [hp]
      · simp
      · exact fun _ => .inr (by rw [← g2]; exact h.z1 ch k0 ⟨i, c, hi, by rw [hp]; rfl⟩ g1 hc hb)
      · simp
  case wClose ch =>
    obtain ⟨k0, g1, g2⟩ := h.ref i c ch hi (by rw [hp]; rfl)
    simp only [g1] at ht
    cases ht
    have nW : ¬ W (St.goto { s with chans := s.chans.set ch { k0 with closed := true } } i c (.wAdd .error)) ch := by
      rintro ⟨j, d, hj, hd⟩
      replace hj := get_set_cases hj
      rcases hj with ⟨rfl, rfl⟩ | ⟨hne, hj⟩
      · cases hd
      · exact hne (h.own j i d c ch hj hi (selPc_w hd) (by rw [hp]; rfl))
    refine inv_chan (k1 := { k0 with closed := true }) h hi g1 rfl rfl rfl rfl rfl rfl (by rw [hp]; rfl) g2 ?_ ?_ ?_ ?_ ?_ ?_ ?_ ?_ ?_ ?_
      (fun hh => absurd hh nW) ?_ (fun hh => absurd hh nW) ?_ ?_ ?_
    · cases hq : c.kind <;> simp_all [kindOk]
    · simp [chanOf]
    · simp [wchan]
    · simp [selPc]
    · simp [hp]
    · simp
    · intro q
      have h1 := h.occ q
      have h2 := sentN_set (p := q) (c' := { c with pc := .wAdd .error }) hi (by cases c.kind <;> simp [sent, hp])
      have h3 := cnt_set (p := hasGot q) (c' := { c with pc := .wAdd .error }) hi
      have h4 := cnt_set (p := holdsBuf q) (c' := { k0 with closed := true }) g1
      have h5 : hasGot q c = false := by simp [hasGot, hp, gotOf]
      have h6 : hasGot q { c with pc := .wAdd .error } = false := by simp [hasGot, gotOf]
      have h7 : holdsBuf q { k0 with closed := true } = holdsBuf q k0 := rfl
      rw [h5, h6] at h3; rw [h7] at h4
      show (s.chans.set ch _).countP _ + (s.log.set i _).countP _ ≤ sentN (s.log.set i _) q
      unfold FastAwait.occ at h1
      omega
    · exact fun q hq => .inl hq
    · simp [gotOf]
    · simp
    · simp
    · simp [zeroPc]
    · simp
    · simp
  case wAdd r =>
    cases ht
    refine inv_keep h hi rfl rfl rfl rfl (fun _ _ => .inl) ?_ ?_ ?_ ?_ ?_ ?_ ?_ ?_ ?_ ?_ ?_
    · cases hq : c.kind <;> simp_all [kindOk]
    · simp [chanOf]
    · simp [wchan]
    · simp [selPc]
    · simp
    · cases r <;> simp [gotOf, hp]
    · simp [sent, hp]
    · simp [hp]
    · simp
    · intro hz; rw [hp]; cases r <;> first | (cases hz; done) | exact .inl trivial
    · simp
  case wDel r =>
    cases ht
    refine inv_keep h hi rfl rfl rfl rfl (fun _ _ hh => .inl (upd_none hh)) ?_ ?_ ?_ ?_ ?_ ?_ ?_ ?_ ?_ ?_ ?_
    · cases hq : c.kind <;> simp_all [kindOk]
    · simp [chanOf]
    · simp [wchan]
    · simp [selPc]
    · simp
    · cases r <;> simp [gotOf, hp]
    · simp [sent, hp]
    · simp [hp]
    · simp
    · intro hz; rw [hp]; cases r <;> first | (cases hz; done) | exact .inl trivial
    · simp
  case wRet => cases ht
  case get n =>
    split at ht
    · rename_i ch hm
      cases ht
      refine inv_keep h hi rfl rfl rfl rfl (fun _ _ => .inl) ?_ ?_ ?_ ?_ ?_ ?_ ?_ ?_ ?_ ?_ ?_
      · cases hq : c.kind <;> simp_all [kindOk]
      · intro ch' e; simp only [chanOf, Option.some.injEq] at e; subst e; exact .inr hm
      · simp [wchan]
      · simp [selPc]
      · simp
      · simp [gotOf, hp]
      · simp [sent, hp]
      · simp [hp]
      · simp
      · simp [zeroPc]
      · simp
    · cases ht
      refine inv_keep h hi rfl rfl rfl rfl (fun _ _ => .inl) ?_ ?_ ?_ ?_ ?_ ?_ ?_ ?_ ?_ ?_ ?_
      · cases hq : c.kind <;> simp_all [kindOk]
      all_goals simp [chanOf, wchan, selPc, gotOf, sent, zeroPc, hp]
  case isDel n =>
    split at ht
    · cases ht
      refine inv_keep h hi rfl rfl rfl rfl (fun _ _ => .inl) ?_ ?_ ?_ ?_ ?_ ?_ ?_ ?_ ?_ ?_ ?_
      · cases hq : c.kind <;> simp_all [kindOk]
      all_goals simp [chanOf, wchan, selPc, gotOf, sent, zeroPc, hp]
    · cases n <;> cases ht
      · refine inv_keep h hi rfl rfl rfl rfl (fun _ _ => .inl) ?_ ?_ ?_ ?_ ?_ ?_ ?_ ?_ ?_ ?_ ?_
        · cases hq : c.kind <;> simp_all [kindOk]
        all_goals simp [chanOf, wchan, selPc, gotOf, sent, zeroPc, hp]
      · refine inv_keep h hi rfl rfl rfl rfl (fun _ _ => .inl) ?_ ?_ ?_ ?_ ?_ ?_ ?_ ?_ ?_ ?_ ?_
        · cases hq : c.kind <;> simp_all [kindOk]
        all_goals simp [chanOf, wchan, selPc, gotOf, sent, zeroPc, hp]
  case del ch =>
    cases ht
    cases hq : c.kind
    case wait => simp [kindOk, hp, hq] at hko
    case put v =>
      refine inv_keep (c' := { c with pc := .send ch }) h hi rfl rfl rfl rfl (fun _ _ hh => .inl (upd_none hh)) ?_ ?_ ?_ ?_ ?_ ?_ ?_ ?_ ?_ ?_ ?_
      · simp [kindOk, hq]
      all_goals simp [chanOf, wchan, selPc, gotOf, sent, zeroPc, hp]
    case close =>
      refine inv_keep (c' := { c with pc := .close ch false }) h hi rfl rfl rfl rfl (fun _ _ hh => .inl (upd_none hh)) ?_ ?_ ?_ ?_ ?_ ?_ ?_ ?_ ?_ ?_ ?_
      · simp [kindOk, hq]
      all_goals simp [chanOf, wchan, selPc, gotOf, sent, zeroPc, hp, hq, isPut]
  case send ch =>
    obtain ⟨k0, g1, g2⟩ := h.ref i c ch hi (by rw [hp]; rfl)
    simp only [g1] at ht
    have hput : isPut c = true := by cases hq : c.kind <;> simp_all [kindOk, isPut]
    split at ht
    · rename_i hc
      cases ht
      refine inv_keep h hi rfl rfl rfl rfl (fun _ _ => .inl) ?_ ?_ ?_ ?_ ?_ ?_ ?_ ?_ ?_ ?_ ?_
      · cases hq : c.kind <;> simp_all [kindOk]
      · simp [chanOf, hp]
      · simp [wchan]
      · simp [selPc]
      · simp
      · simp [gotOf, hp]
      · simp [sent, hp]
      · simp [hp]
      · simp
      · simp [zeroPc]
      · intro ch' e; simp only [Pc.close.injEq, and_true] at e; subst e; exact ⟨k0, g1, hc⟩
    · rename_i hc
      simp only [Bool.not_eq_true] at hc
      split at ht <;> cases ht
      rename_i hb
      refine inv_chan (k1 := { k0 with buf := some i }) h hi g1 rfl rfl rfl rfl rfl rfl (by rw [hp]; rfl) g2 ?_ ?_ ?_ ?_ ?_ ?_ ?_ ?_ ?_ ?_ ?_ ?_ ?_ ?_ ?_ ?_
      · cases hq : c.kind <;> simp_all [kindOk]
      · intro ch' e; simp only [chanOf, Option.some.injEq] at e; exact e.symm
      · simp [wchan]
      · simp [selPc]
      · simp [hp]
      · simp
      · intro q
        have h1 := h.occ q
        have h3 := cnt_set (p := hasGot q) (c' := { c with pc := .close ch false }) hi
        have h4 := cnt_set (p := holdsBuf q) (c' := { k0 with buf := some i }) g1
        have h5 : hasGot q c = false := by simp [hasGot, hp, gotOf]
        have h6 : hasGot q { c with pc := .close ch false } = false := by simp [hasGot, gotOf]
        have h7 : holdsBuf q k0 = false := by simp [holdsBuf, hb]
        rw [h5, h6] at h3; rw [h7] at h4
        simp only [Bool.toNat_false] at h3 h4
        show (s.chans.set ch _).countP _ + (s.log.set i _).countP _ ≤ sentN (s.log.set i _) q
        unfold FastAwait.occ at h1
        by_cases e : q = i
        · subst e
          have e1 : sentN s.log q = 0 := by
            unfold sentN; rw [hi]
            cases hq : c.kind <;> simp [sent, hp, hq]
          have e2 : sentN (s.log.set q { c with pc := .close ch false }) q = 1 := by
            unfold sentN; rw [get_set_self hi]
            cases hq : c.kind <;> simp_all [sent, isPut]
          have e3 : holdsBuf q { k0 with buf := some q } = true := by simp [holdsBuf]
          rw [e3] at h4
          simp only [Bool.toNat_true] at h4
          omega
        · have e1 : sentN (s.log.set i { c with pc := .close ch false }) q = sentN s.log q := by unfold sentN; rw [get_set_ne e]
          have e3 : holdsBuf q { k0 with buf := some i } = false := by simp [holdsBuf, Ne.symm e]
          rw [e3] at h4
          simp only [Bool.toNat_false] at h4
          omega
      · intro q hq; simp only [Option.some.injEq] at hq; exact .inr ⟨hq.symm, hput⟩
      · simp [gotOf]
      · intro q hq _; simp only [Option.some.injEq] at hq; exact .inr ⟨hq.symm, rfl⟩
      · simp
      · simp
      · simp
      · simp [zeroPc]
      · exact id
      · simp
  case close ch pn =>
    obtain ⟨k0, g1, g2⟩ := h.ref i c ch hi (by rw [hp]; rfl)
    simp only [g1] at ht
    split at ht
    · rename_i hc
      cases ht
      refine inv_keep h hi rfl rfl rfl rfl (fun _ _ => .inl) ?_ ?_ ?_ ?_ ?_ ?_ ?_ ?_ ?_ ?_ ?_
      · cases hq : c.kind <;> simp_all [kindOk]
      · simp [chanOf]
      · simp [wchan]
      · simp [selPc]
      · simp
      · simp [gotOf, hp]
      · cases hq : c.kind <;> simp_all [sent]
      · intro ch' e; rw [hp] at e; simp only [Pc.close.injEq] at e; rw [← e.1]; exact ⟨k0, g1, hc⟩
      · simp
      · simp [zeroPc]
      · simp
    · rename_i hc
      simp only [Bool.not_eq_true] at hc
      have hpn : pn = false := by
        cases pn
        · rfl
        · obtain ⟨k, e1, e2⟩ := h.cp i c ch hi hp
          rw [g1] at e1; cases e1
          rw [hc] at e2; cases e2
      subst hpn
      cases ht
      refine inv_chan (k1 := { k0 with closed := true }) h hi g1 rfl rfl rfl rfl rfl rfl (by rw [hp]; rfl) g2 ?_ ?_ ?_ ?_ ?_ ?_ ?_ ?_ ?_ ?_ ?_ ?_ ?_ ?_ ?_ ?_
      · cases hq : c.kind <;> simp_all [kindOk]
      · simp [chanOf]
      · simp [wchan]
      · simp [selPc]
      · simp [hp]
      · simp
      · intro q
        have h1 := h.occ q
        have h2 := sentN_set (p := q) (c' := { c with pc := .ret false }) hi (by cases hq : c.kind <;> simp_all [sent])
        have h3 := cnt_set (p := hasGot q) (c' := { c with pc := .ret false }) hi
        have h4 := cnt_set (p := holdsBuf q) (c' := { k0 with closed := true }) g1
        have h5 : hasGot q c = false := by simp [hasGot, hp, gotOf]
        have h6 : hasGot q { c with pc := .ret false } = false := by simp [hasGot, gotOf]
        have h7 : holdsBuf q { k0 with closed := true } = holdsBuf q k0 := rfl
        rw [h5, h6] at h3; rw [h7] at h4
        show (s.chans.set ch _).countP _ + (s.log.set i _).countP _ ≤ sentN (s.log.set i _) q
        unfold FastAwait.occ at h1
        omega
      · exact fun q hq => .inl hq
      · simp [gotOf]
      · simp
      · exact fun _ hb => hb
      · simp
      · intro hwt _ hb
        have hwt' := W_back hi rfl (by simp [selPc]) hwt
        cases hq : c.kind
        case wait => simp [kindOk, hp, hq] at hko
        case put v =>
          obtain ⟨k, e1, e2⟩ := h.sb i c ch hi (by simp [isPut, hq]) hp hwt'
          rw [g1] at e1; cases e1
          exact absurd hb e2
        case close => exact .inr ⟨i, c, hi, hq, rfl⟩
      · simp [zeroPc]
      · simp
      · simp
  case ret => cases ht

/-- A new `CloseAndPut` or `Close`. -/
theorem inv_start {s : St V} (h : Inv s) {c : Call V} (hko : kindOk c = true) (h2 : chanOf c.pc = none)
    (h3 : gotOf c.pc = none) (h4 : sent c = false) (h5 : ¬ zeroPc c.pc) : Inv { s with log := s.log ++ [c] } := by
  have ap : ∀ {p : Nat} {d : Call V}, s.log[p]? = some d → (s.log ++ [c])[p]? = some d := fun hd => by
    rw [List.getElem?_append_left (List.getElem?_eq_some_iff.1 hd).1]; exact hd
  have nw : wchan c.pc = none := by cases hp : c.pc <;> simp_all [wchan, chanOf]
  have ns : selPc c.pc = none := by cases hp : c.pc <;> simp_all [selPc, chanOf]
  have hW : ∀ {ch}, W { s with log := s.log ++ [c] } ch → W s ch := by
    rintro ch ⟨j, d, hj, hd⟩
    rcases get_app hj with ⟨hj, _⟩ | ⟨_, rfl⟩
    · exact ⟨j, d, hj, hd⟩
    · rw [ns] at hd; cases hd
  have hcc : ∀ {x}, closeCall x s.log → closeCall x (s.log ++ [c]) := fun ⟨j, d, hj, hd⟩ => ⟨j, d, ap hj, hd⟩
  constructor
  · intro j d ch hj hd
    rcases get_app hj with ⟨hj, _⟩ | ⟨_, rfl⟩
    · exact h.ref j d ch hj hd
    · rw [h2] at hd; cases hd
  · exact h.mv
  · intro a b e f ch ha hb he hf
    replace ha := get_app ha
    replace hb := get_app hb
    rcases ha with ⟨ha, _⟩ | ⟨ea, rfl⟩ <;> rcases hb with ⟨hb, _⟩ | ⟨eb, rfl⟩
    · exact h.own a b e f ch ha hb he hf
    · rw [nw] at hf; cases hf
    · rw [nw] at he; cases he
    · rw [nw] at he; cases he
  · intro j d ch hj hd
    rcases get_app hj with ⟨hj, _⟩ | ⟨_, rfl⟩
    · obtain ⟨a1, a2, a3⟩ := h.fr j d ch hj hd
      refine ⟨a1, fun a e ha hae => ?_, a3⟩
      rcases get_app ha with ⟨ha, _⟩ | ⟨_, rfl⟩
      · exact a2 a e ha hae
      · rw [h2]; simp
    · rw [hd] at h2; cases h2
  · intro p
    have h1 := h.occ p
    have e : hasGot p c = false := by simp [hasGot, h3]
    have e2 : sentN (s.log ++ [c]) p ≥ sentN s.log p := by
      unfold sentN
      cases hp : s.log[p]? with
      | none => simp
      | some d => rw [ap hp]; exact Nat.le_refl _
    simp only [FastAwait.occ, List.countP_append, List.countP_singleton, e] at h1 ⊢
    simp only [Bool.false_eq_true, if_false]
    omega
  · intro ch k p hc hp
    obtain ⟨d, d1, d2⟩ := h.bi ch k p hc hp
    exact ⟨d, ap d1, d2⟩
  · intro j d p hj hd
    rcases get_app hj with ⟨hj, _⟩ | ⟨_, rfl⟩
    · obtain ⟨e, e1, e2⟩ := h.gi j d p hj hd
      exact ⟨e, ap e1, e2⟩
    · rw [h3] at hd; cases hd
  · intro j d hj
    rcases get_app hj with ⟨hj, _⟩ | ⟨_, rfl⟩
    · exact h.ko j d hj
    · exact hko
  · intro ch k p hc hp hcl
    obtain ⟨d, d1, d2⟩ := h.bc ch k p hc hp hcl
    exact ⟨d, ap d1, d2⟩
  · intro j d ch hj hd hp hw
    rcases get_app hj with ⟨hj, _⟩ | ⟨_, rfl⟩
    · exact h.sb j d ch hj hd hp (hW hw)
    · rw [hp] at h2; cases h2
  · exact fun ch k hw hc hcl hb => hcc (h.z1 ch k (hW hw) hc hcl hb)
  · intro j d hj hd
    rcases get_app hj with ⟨hj, _⟩ | ⟨_, rfl⟩
    · exact hcc (h.z2 j d hj hd)
    · exact absurd hd h5
  · intro j d ch hj hd
    rcases get_app hj with ⟨hj, _⟩ | ⟨_, rfl⟩
    · exact h.cp j d ch hj hd
    · rw [hd] at h2; cases h2

/-- A new `Wait`. -/
theorem inv_wait {s : St V} (h : Inv s) {b1 b2 : Bool} {x : Id} :
    Inv { s with chans := s.chans ++ [{ idx := x }], log := s.log ++ [⟨.wait b1 b2, x, .wPut s.chans.length⟩] } := by
  have ap : ∀ {p : Nat} {d : Call V}, s.log[p]? = some d → (s.log ++ [⟨.wait b1 b2, x, .wPut s.chans.length⟩])[p]? = some d := fun hd => by
    rw [List.getElem?_append_left (List.getElem?_eq_some_iff.1 hd).1]; exact hd
  have app : ∀ {ch : Nat} {k : Chan}, s.chans[ch]? = some k → (s.chans ++ [({ idx := x } : Chan)])[ch]? = some k := fun hk => by
    rw [List.getElem?_append_left (List.getElem?_eq_some_iff.1 hk).1]; exact hk
  have last : (s.chans ++ [({ idx := x } : Chan)])[s.chans.length]? = some { idx := x } := by simp
  have lt : ∀ {a : Nat} {e : Call V} {ch : Nat}, s.log[a]? = some e → chanOf e.pc = some ch → ch ≠ s.chans.length := by
    intro a e ch ha he
    obtain ⟨k, g1, _⟩ := h.ref a e ch ha he
    have := (List.getElem?_eq_some_iff.1 g1).1
    omega
  have hW : ∀ {ch}, ch ≠ s.chans.length → W { s with chans := s.chans ++ [{ idx := x }], log := s.log ++ [⟨.wait b1 b2, x, .wPut s.chans.length⟩] } ch → W s ch := by
    rintro ch hne ⟨j, d, hj, hd⟩
    rcases get_app hj with ⟨hj, _⟩ | ⟨_, rfl⟩
    · exact ⟨j, d, hj, hd⟩
    · simp only [selPc, Option.some.injEq] at hd; exact absurd hd.symm hne
  have hcc : ∀ {y}, closeCall y s.log → closeCall y (s.log ++ [⟨.wait b1 b2, x, .wPut s.chans.length⟩]) := fun ⟨j, d, hj, hd⟩ => ⟨j, d, ap hj, hd⟩
  constructor
  · intro j d ch hj hd
    rcases get_app hj with ⟨hj, _⟩ | ⟨_, rfl⟩
    · obtain ⟨k, g1, g2⟩ := h.ref j d ch hj hd
      exact ⟨k, app g1, g2⟩
    · simp only [chanOf, Option.some.injEq] at hd; subst hd
      exact ⟨_, last, rfl⟩
  · intro y ch hy
    obtain ⟨k, g1, g2⟩ := h.mv y ch hy
    exact ⟨k, app g1, g2⟩
  · intro a b e f ch ha hb he hf
    replace ha := get_app ha
    replace hb := get_app hb
    rcases ha with ⟨ha, _⟩ | ⟨ea, rfl⟩ <;> rcases hb with ⟨hb, _⟩ | ⟨eb, rfl⟩
    · exact h.own a b e f ch ha hb he hf
    · simp only [wchan, Option.some.injEq] at hf; exact absurd hf.symm (lt ha (wchan_c he))
    · simp only [wchan, Option.some.injEq] at he; exact absurd he.symm (lt hb (wchan_c hf))
    · rw [ea, eb]
  · intro j d ch hj hd
    rcases get_app hj with ⟨hj, hjl⟩ | ⟨hjl, rfl⟩
    · obtain ⟨a1, a2, k, a3, a4⟩ := h.fr j d ch hj hd
      refine ⟨a1, fun a e ha hae => ?_, k, app a3, a4⟩
      rcases get_app ha with ⟨ha, _⟩ | ⟨_, rfl⟩
      · exact a2 a e ha hae
      · simp only [chanOf, ne_eq, Option.some.injEq]
        exact (lt hj (by rw [hd]; rfl)).symm
    · simp only [Pc.wPut.injEq] at hd; subst hd
      refine ⟨fun y hy => ?_, fun a e ha hae => ?_, _, last, rfl, rfl⟩
      · obtain ⟨k, g1, _⟩ := h.mv y _ hy
        have := (List.getElem?_eq_some_iff.1 g1).1
        omega
      · rcases get_app ha with ⟨ha, _⟩ | ⟨ha, _⟩
        · exact fun hc => lt ha hc rfl
        · exact absurd (ha.trans hjl.symm) hae
  · intro p
    have h1 := h.occ p
    have e : hasGot p (⟨.wait b1 b2, x, .wPut s.chans.length⟩ : Call V) = false := by simp [hasGot, gotOf]
    have e1 : holdsBuf p { idx := x } = false := rfl
    have e2 : sentN (s.log ++ [⟨.wait b1 b2, x, .wPut s.chans.length⟩]) p ≥ sentN s.log p := by
      unfold sentN
      cases hp : s.log[p]? with
      | none => simp
      | some d => rw [ap hp]; exact Nat.le_refl _
    simp only [FastAwait.occ, List.countP_append, List.countP_singleton, e, e1] at h1 ⊢
    simp only [Bool.false_eq_true, if_false]
    omega
  · intro ch k p hc hp
    rcases get_app hc with ⟨hc, _⟩ | ⟨_, rfl⟩
    · obtain ⟨d, d1, d2⟩ := h.bi ch k p hc hp
      exact ⟨d, ap d1, d2⟩
    · cases hp
  · intro j d p hj hd
    rcases get_app hj with ⟨hj, _⟩ | ⟨_, rfl⟩
    · obtain ⟨e, e1, e2⟩ := h.gi j d p hj hd
      exact ⟨e, ap e1, e2⟩
    · cases hd
  · intro j d hj
    rcases get_app hj with ⟨hj, _⟩ | ⟨_, rfl⟩
    · exact h.ko j d hj
    · rfl
  · intro ch k p hc hp hcl
    rcases get_app hc with ⟨hc, _⟩ | ⟨_, rfl⟩
    · obtain ⟨d, d1, d2⟩ := h.bc ch k p hc hp hcl
      exact ⟨d, ap d1, d2⟩
    · cases hp
  · intro j d ch hj hd hp hw
    rcases get_app hj with ⟨hj, _⟩ | ⟨_, rfl⟩
    · obtain ⟨k, g1, g2⟩ := h.sb j d ch hj hd hp (hW (lt hj (by rw [hp]; rfl)) hw)
      exact ⟨k, app g1, g2⟩
    · cases hp
  · intro ch k hw hc hcl hb
    rcases get_app hc with ⟨hc, hl⟩ | ⟨_, rfl⟩
    · exact hcc (h.z1 ch k (hW (by omega) hw) hc hcl hb)
    · cases hcl
  · intro j d hj hd
    rcases get_app hj with ⟨hj, _⟩ | ⟨_, rfl⟩
    · exact hcc (h.z2 j d hj hd)
    · exact absurd hd id
  · intro j d ch hj hd
    rcases get_app hj with ⟨hj, _⟩ | ⟨_, rfl⟩
    · obtain ⟨k, g1, g2⟩ := h.cp j d ch hj hd
      exact ⟨k, app g1, g2⟩
    · cases hd

theorem inv_abort {s : St V} (h : Inv s) {i ch : Nat} {c : Call V} (hi : s.log[i]? = some c) (hp : c.pc = .select ch) : Inv (s.goto i c (.wClose ch)) := by
  have hko := h.ko i c hi
  refine inv_keep h hi rfl rfl rfl rfl (fun _ _ => .inl) ?_ ?_ ?_ ?_ ?_ ?_ ?_ ?_ ?_ ?_ ?_
  · cases hq : c.kind <;> simp_all [kindOk]
  all_goals simp [chanOf, wchan, selPc, gotOf, sent, zeroPc, hp]

/-- What an action does. -/
theorem act_cases {has : List Id → Id → Bool} {loops : Nat} {s t : St V} {a : Act V} (h : act has loops s a = some t) :
    (∃ timed ctx x, a = .wait timed ctx x ∧ t = { s with chans := s.chans ++ [{ idx := x }], log := s.log ++ [⟨.wait timed ctx, x, .wPut s.chans.length⟩] }) ∨
    (∃ x v, a = .put x v ∧ t = { s with log := s.log ++ [⟨.put v, x, .get loops⟩] }) ∨
    (∃ x, a = .close x ∧ t = { s with log := s.log ++ [⟨.close, x, .get loops⟩] }) ∨
    (∃ i c, a = .step i ∧ s.log[i]? = some c ∧ step has s i c = some t) ∨
    (∃ i c ch, (a = .timeout i ∨ a = .cancel i) ∧ s.log[i]? = some c ∧ c.pc = .select ch ∧ (∃ b, c.kind = .wait true b) ∧ t = s.goto i c (.wClose ch)) := by
  cases a with
  | wait timed ctx x => simp only [act, Option.some.injEq] at h; exact .inl ⟨_, _, _, rfl, h.symm⟩
  | put x v => simp only [act, Option.some.injEq] at h; exact .inr (.inl ⟨_, _, rfl, h.symm⟩)
  | close x => simp only [act, Option.some.injEq] at h; exact .inr (.inr (.inl ⟨_, rfl, h.symm⟩))
  | step i =>
    simp only [act] at h
    cases hi : s.log[i]? with
    | none => simp [hi] at h
    | some c => simp only [hi, Option.bind_some] at h; exact .inr (.inr (.inr (.inl ⟨i, c, rfl, hi, h⟩)))
  | timeout i =>
    simp only [act] at h
    cases hi : s.log[i]? with
    | none => simp [hi] at h
    | some c =>
      simp only [hi, Option.bind_some] at h
      split at h
      · rename_i b ch hk hp
        simp only [Option.some.injEq] at h
        exact .inr (.inr (.inr (.inr ⟨i, c, ch, .inl rfl, hi, hp, ⟨b, hk⟩, h.symm⟩)))
      · cases h
  | cancel i =>
    simp only [act] at h
    cases hi : s.log[i]? with
    | none => simp [hi] at h
    | some c =>
      simp only [hi, Option.bind_some] at h
      split at h
      · rename_i ch hk hp
        simp only [Option.some.injEq] at h
        exact .inr (.inr (.inr (.inr ⟨i, c, ch, .inr rfl, hi, hp, ⟨true, hk⟩, h.symm⟩)))
      · cases h

theorem inv_act {has : List Id → Id → Bool} {loops : Nat} {s t : St V} (h : Inv s) {a : Act V} (ht : act has loops s a = some t) : Inv t := by
  rcases act_cases ht with ⟨_, _, _, _, rfl⟩ | ⟨_, _, _, rfl⟩ | ⟨_, _, rfl⟩ | ⟨i, c, _, hi, hs⟩ | ⟨i, c, ch, _, hi, hp, _, rfl⟩
  · exact inv_wait h
  · exact inv_start h rfl rfl rfl rfl id
  · exact inv_start h rfl rfl rfl rfl id
  · exact inv_step h hi hs
  · exact inv_abort h hi hp

theorem inv_exec {has : List Id → Id → Bool} {loops : Nat} {s t : St V} (h : Inv s) {as : List (Act V)} (ht : exec has loops s as = some t) : Inv t := by
  induction as generalizing s with
  | nil => simp only [exec, Option.some.injEq] at ht; subst ht; exact h
  | cons a as ih =>
    simp only [exec] at ht
    cases ha : act has loops s a with
    | none => simp [ha] at ht
    | some u => simp only [ha, Option.bind_some] at ht; exact ih (inv_act h ha) ht

end Gofer.FastAwait
