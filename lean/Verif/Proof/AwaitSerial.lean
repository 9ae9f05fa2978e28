import Verif.Proof.Await
import Verif.Spec.Await

/-! # `Await` when the `Wait` calls for an id do not overlap: helper lemmas -/
namespace Gofer.Await
open Gofer.Count

variable {V : Type}

/-- A `Wait` that has not returned. -/
def flying (c : Call V) : Bool := match c.kind, c.pc with | .wait _ _, .wRet _ => false | .wait _ _, _ => true | _, _ => false
def early : Pc → Prop
  | .wEnter | .wLocked | .wPut _ => True
  | _ => False
def waitPc (ch : Nat) : Pc → Prop
  | .wUnlock x | .select x => x = ch
  | _ => False
def takenPc (ch : Nat) : Pc → Prop
  | .del x | .send x | .close x => x = ch
  | _ => False
def zeroPc : Pc → Prop
  | .wDel .zero | .wRet .zero => True
  | _ => False
/-- Somebody waits for channel `ch`, for the id `x`. -/
def W (x : Id) (s : St V) (ch : Nat) : Prop := ∃ (j : Nat) (d : Call V), s.log[j]? = some d ∧ d.idx = x ∧ waitPc ch d.pc
/-- Channel `ch` has been taken by a call, or has a value, or is closed. -/
def Ok (s : St V) (ch : Nat) : Prop :=
  (∃ (j : Nat) (d : Call V), s.log[j]? = some d ∧ takenPc ch d.pc) ∨ ∃ k, s.chans[ch]? = some k ∧ (k.buf ≠ none ∨ k.closed = true)
def closeCall (x : Id) (log : List (Call V)) : Prop := ∃ (j : Nat) (d : Call V), log[j]? = some d ∧ d.kind = .close ∧ d.idx = x

structure Inv2 (x : Id) (s : St V) : Prop where
  al : ∀ (i j : Nat) (c d : Call V), s.log[i]? = some c → s.log[j]? = some d → flying c = true → flying d = true → c.idx = x → d.idx = x → i = j
  m0 : (∀ (i : Nat) (c : Call V), s.log[i]? = some c → c.idx = x → flying c = false) → s.m x = none
  m1 : ∀ (i : Nat) (c : Call V), s.log[i]? = some c → c.idx = x → early c.pc → s.m x = none
  dl : ∀ (i : Nat) (c : Call V) (ch : Nat), s.log[i]? = some c → c.idx = x → c.pc = .del ch → s.m x = some ch ∨ s.m x = none
  fc : ∀ (i : Nat) (c : Call V) (ch : Nat), s.log[i]? = some c → c.idx = x → c.pc = .wPut ch → ∃ k, s.chans[ch]? = some k ∧ k.closed = false
  ok : ∀ ch, W x s ch → s.m x = some ch ∨ Ok s ch
  bf : ∀ (i : Nat) (c : Call V) (ch : Nat), s.log[i]? = some c → isPut c = true → c.pc = .close ch → W x s ch → ∃ k, s.chans[ch]? = some k ∧ k.buf ≠ none
  z1 : ∀ (ch : Nat) (k : Chan), W x s ch → s.chans[ch]? = some k → k.closed = true → k.buf = none → closeCall x s.log
  z2 : ∀ (i : Nat) (c : Call V), s.log[i]? = some c → c.idx = x → zeroPc c.pc → closeCall x s.log

theorem inv2_new (x : Id) : Inv2 x (new V) := by
  constructor <;> intros <;> simp_all [new, W]

theorem closeCall_set {x : Id} {log : List (Call V)} {i : Nat} {c c' : Call V} (hi : log[i]? = some c) (hk : c'.kind = c.kind) (hx : c'.idx = c.idx)
    (h : closeCall x log) : closeCall x (log.set i c') := by
  obtain ⟨j, d, hj, h1, h2⟩ := h
  by_cases e : j = i
  · subst e
    rw [hi] at hj; cases hj
    exact ⟨j, c', get_set_self hi, hk.trans h1, hx.trans h2⟩
  · exact ⟨j, d, by rw [get_set_ne e]; exact hj, h1, h2⟩

theorem waitPc_chan {ch : Nat} {p : Pc} (h : waitPc ch p) : chanOf p = some ch := by cases p <;> simp_all [waitPc, chanOf]
theorem takenPc_chan {ch : Nat} {p : Pc} (h : takenPc ch p) : chanOf p = some ch := by cases p <;> simp_all [takenPc, chanOf]
/-- The points of a `Wait` before its return. -/
def liveW : Pc → Bool
  | .wEnter | .wLocked | .wPut _ | .wUnlock _ | .select _ | .wClose _ | .wDel _ => true
  | _ => false
theorem fly_eq {c : Call V} (hk : kindOk c = true) : flying c = liveW c.pc := by
  cases hp : c.pc <;> cases hq : c.kind <;> simp_all [liveW, kindOk, flying]

theorem waitPc_fly {ch : Nat} {c : Call V} (hk : kindOk c = true) (h : waitPc ch c.pc) : flying c = true := by
  cases hp : c.pc <;> cases hq : c.kind <;> simp_all [waitPc, kindOk, flying]

/-- A step of a call for another id. -/
theorem inv2_frame {ix : Id → Nat} {x : Id} {s t : St V} (h1 : Inv ix s) (h2 : Inv ix t) (h : Inv2 x s) {i : Nat} {c c' : Call V}
    (hi : s.log[i]? = some c) (hx : c.idx ≠ x)
    (hlog : t.log = s.log.set i c') (hx' : c'.idx = c.idx) (hm : t.m x = s.m x) (hch : ∀ (ch : Nat) (k : Chan), k.idx = x → (t.chans[ch]? = some k ↔ s.chans[ch]? = some k)) : Inv2 x t := by
  have hl : ∀ {j : Nat} {d : Call V}, d.idx = x → (t.log[j]? = some d ↔ s.log[j]? = some d) := by
    intro j d hd
    rw [hlog]
    constructor
    · intro hj
      rcases get_set_cases hj with ⟨_, rfl⟩ | ⟨_, hj⟩
      · exact absurd (hx'.symm.trans hd) hx
      · exact hj
    · intro hj
      by_cases e : j = i
      · subst e; rw [hi] at hj; cases hj; exact absurd hd hx
      · rw [get_set_ne e]; exact hj
  have hW : ∀ {ch}, W x t ch → W x s ch := fun ⟨j, d, hj, hd, hp⟩ => ⟨j, d, (hl hd).1 hj, hd, hp⟩
  have hcc : closeCall x s.log → closeCall x t.log := fun ⟨j, d, hj, hd, hp⟩ => ⟨j, d, (hl hp).2 hj, hd, hp⟩
  have hWi : ∀ {ch k}, W x s ch → s.chans[ch]? = some k → k.idx = x := by
    rintro ch k ⟨j, d, hj, hd, hp⟩ hk
    obtain ⟨k', g1, g2⟩ := h1.ref j d ch hj (waitPc_chan hp)
    rw [hk] at g1; cases g1
    exact g2.trans hd
  have hWt : ∀ {ch k}, W x t ch → t.chans[ch]? = some k → k.idx = x := by
    rintro ch k ⟨j, d, hj, hd, hp⟩ hk
    obtain ⟨k', g1, g2⟩ := h2.ref j d ch hj (waitPc_chan hp)
    rw [hk] at g1; cases g1
    exact g2.trans hd
  have hOk : ∀ {ch}, W x s ch → Ok s ch → Ok t ch := by
    rintro ch hw (⟨j, d, hj, hd⟩ | ⟨k, hk, hk'⟩)
    · obtain ⟨k, g1, g2⟩ := h1.ref j d ch hj (takenPc_chan hd)
      exact .inl ⟨j, d, (hl (g2.symm.trans (hWi hw g1))).2 hj, hd⟩
    · exact .inr ⟨k, (hch ch k (hWi hw hk)).2 hk, hk'⟩
  constructor
  · exact fun a b e f ha hb he hf hxe hxf => h.al a b e f ((hl hxe).1 ha) ((hl hxf).1 hb) he hf hxe hxf
  · intro ha
    rw [hm]
    exact h.m0 fun a e he hxe => ha a e ((hl hxe).2 he) hxe
  · exact fun a e he hxe hp => by rw [hm]; exact h.m1 a e ((hl hxe).1 he) hxe hp
  · exact fun a e ch he hxe hp => by rw [hm]; exact h.dl a e ch ((hl hxe).1 he) hxe hp
  · intro a e ch he hxe hp
    have he' := (hl hxe).1 he
    obtain ⟨k, g1, g2⟩ := h.fc a e ch he' hxe hp
    obtain ⟨k', g3, g4⟩ := h1.ref a e ch he' (by rw [hp]; rfl)
    rw [g1] at g3; cases g3
    exact ⟨k, (hch ch k (g4.trans hxe)).2 g1, g2⟩
  · intro ch hw
    rw [hm]
    exact (h.ok ch (hW hw)).imp id (hOk (hW hw))
  · intro a e ch he hpt hp hw
    obtain ⟨k', g3, g4⟩ := h2.ref a e ch he (by rw [hp]; rfl)
    have hxe := g4.symm.trans (hWt hw g3)
    obtain ⟨k, g1, g2⟩ := h.bf a e ch ((hl hxe).1 he) hpt hp (hW hw)
    exact ⟨k, (hch ch k (hWi (hW hw) g1)).2 g1, g2⟩
  · intro ch k hw hk hc hb
    exact hcc (h.z1 ch k (hW hw) ((hch ch k (hWt hw hk)).1 hk) hc hb)
  · exact fun a e he hxe hp => hcc (h.z2 a e ((hl hxe).1 he) hxe hp)

/-- A step of a call for this id. -/
theorem inv2_gen {ix : Id → Nat} {x : Id} {s t : St V} (h1 : Inv ix s) (h2 : Inv ix t) (h : Inv2 x s) {i : Nat} {c c' : Call V}
    (hi : s.log[i]? = some c) (hx : c.idx = x) (hlog : t.log = s.log.set i c') (hk : c'.kind = c.kind) (hx' : c'.idx = c.idx)
    (hfl : flying c' = true → flying c = true) (hm0 : flying c = true → flying c' = false → t.m x = none)
    (hm : t.m x = s.m x ∨ t.m x = none) (hea : early c'.pc → early c.pc) (hdl : ∀ ch, c'.pc = .del ch → s.m x = some ch)
    (hwp : ∀ ch, waitPc ch c'.pc → waitPc ch c.pc)
    (hok : ∀ ch, W x t ch → s.m x = some ch → t.m x = some ch ∨ Ok t ch)
    (htk : ∀ ch, W x t ch → takenPc ch c.pc → Ok t ch)
    (hch : ∀ ch k, W x t ch → s.chans[ch]? = some k → ∃ k', t.chans[ch]? = some k' ∧ (k.buf ≠ none → k'.buf ≠ none) ∧ (k.closed = true → k'.closed = true) ∧
      (k'.closed = true → k'.buf = none → (k.closed = true ∧ k.buf = none) ∨ closeCall x s.log))
    (hd : ∀ ch, W x t ch → isPut c' = true → c'.pc = .close ch → ∃ k, t.chans[ch]? = some k ∧ k.buf ≠ none)
    (hz : zeroPc c'.pc → zeroPc c.pc ∨ closeCall x s.log)
    (hfc : ∀ (j : Nat) (d : Call V) (ch : Nat), t.log[j]? = some d → d.idx = x → d.pc = .wPut ch → ∃ k, t.chans[ch]? = some k ∧ k.closed = false) : Inv2 x t := by
  have hW : ∀ {ch}, W x t ch → W x s ch := by
    rintro ch ⟨j, d, hj, hdx, hp⟩
    rw [hlog] at hj
    rcases get_set_cases hj with ⟨rfl, rfl⟩ | ⟨_, hj⟩
    · exact ⟨j, c, hi, hx, hwp ch hp⟩
    · exact ⟨j, d, hj, hdx, hp⟩
  have hcc : closeCall x s.log → closeCall x t.log := fun hc => by rw [hlog]; exact closeCall_set hi hk hx' hc
  constructor
  · intro a b e f ha hb he hf hxe hxf
    have low : ∀ {a : Nat} {e : Call V}, t.log[a]? = some e → flying e = true → e.idx = x → ∃ e', s.log[a]? = some e' ∧ flying e' = true ∧ e'.idx = x := by
      intro a e ha he hxe
      rw [hlog] at ha
      rcases get_set_cases ha with ⟨rfl, rfl⟩ | ⟨_, ha⟩
      · exact ⟨c, hi, hfl he, hx⟩
      · exact ⟨e, ha, he, hxe⟩
    obtain ⟨e', a1, a2, a3⟩ := low ha he hxe
    obtain ⟨f', b1, b2, b3⟩ := low hb hf hxf
    exact h.al a b e' f' a1 b1 a2 b2 a3 b3
  · intro ha
    have hc' : flying c' = false := ha i c' (by rw [hlog]; exact get_set_self hi) (hx'.trans hx)
    cases hfc : flying c with
    | true => exact hm0 hfc hc'
    | false =>
      have : s.m x = none := h.m0 fun a e he hxe => by
        by_cases ea : a = i
        · subst ea; rw [hi] at he; cases he; exact hfc
        · exact ha a e (by rw [hlog, get_set_ne ea]; exact he) hxe
      rcases hm with hm | hm
      · rw [hm]; exact this
      · exact hm
  · intro a e he hxe hp
    have : s.m x = none := by
      rw [hlog] at he
      rcases get_set_cases he with ⟨rfl, rfl⟩ | ⟨_, he⟩
      · exact h.m1 a c hi hx (hea hp)
      · exact h.m1 a e he hxe hp
    rcases hm with hm | hm
    · rw [hm]; exact this
    · exact hm
  · intro a e ch he hxe hp
    have : s.m x = some ch ∨ s.m x = none := by
      rw [hlog] at he
      rcases get_set_cases he with ⟨rfl, rfl⟩ | ⟨_, he⟩
      · exact .inl (hdl ch hp)
      · exact h.dl a e ch he hxe hp
    rcases hm with hm | hm
    · rw [hm]; exact this
    · exact .inr hm
  · exact hfc
  · intro ch hw
    rcases h.ok ch (hW hw) with ho | ⟨j, d, hj, hdp⟩ | ⟨k, hkc, hkk⟩
    · exact hok ch hw ho
    · by_cases e : j = i
      · subst e; rw [hi] at hj; cases hj
        exact .inr (htk ch hw hdp)
      · exact .inr (.inl ⟨j, d, by rw [hlog, get_set_ne e]; exact hj, hdp⟩)
    · obtain ⟨k', g1, g2, g3, _⟩ := hch ch k hw hkc
      exact .inr (.inr ⟨k', g1, hkk.imp g2 g3⟩)
  · intro a e ch he hpt hp hw
    rw [hlog] at he
    rcases get_set_cases he with ⟨rfl, rfl⟩ | ⟨_, he⟩
    · exact hd ch hw hpt hp
    · obtain ⟨k, g1, g2⟩ := h.bf a e ch he hpt hp (hW hw)
      obtain ⟨k', g3, g4, _⟩ := hch ch k hw g1
      exact ⟨k', g3, g4 g2⟩
  · intro ch k hw hkc hc hb
    obtain ⟨j, d, hj, hdx, hp⟩ := hW hw
    obtain ⟨k0, g1, g2⟩ := h1.ref j d ch hj (waitPc_chan hp)
    obtain ⟨k', g3, _, _, g6⟩ := hch ch k0 hw g1
    rw [hkc] at g3; cases g3
    rcases g6 hc hb with ⟨g7, g8⟩ | g
    · exact hcc (h.z1 ch k0 (hW hw) g1 g7 g8)
    · exact hcc g
  · intro a e he hxe hp
    rw [hlog] at he
    rcases get_set_cases he with ⟨rfl, rfl⟩ | ⟨_, he⟩
    · rcases hz hp with hz | hz
      · exact hcc (h.z2 a c hi hx hz)
      · exact hcc hz
    · exact hcc (h.z2 a e he hxe hp)

/-- A step of a call for this id that changes neither the map nor the channels. -/
theorem inv2_pc {ix : Id → Nat} {x : Id} {s t : St V} (h1 : Inv ix s) (h2 : Inv ix t) (h : Inv2 x s) {i : Nat} {c c' : Call V}
    (hi : s.log[i]? = some c) (hx : c.idx = x) (hlog : t.log = s.log.set i c') (hk : c'.kind = c.kind) (hx' : c'.idx = c.idx) (hm : t.m = s.m)
    (hcs : t.chans = s.chans) (hfl : liveW c'.pc = liveW c.pc) (hea : early c'.pc → early c.pc) (hdl : ∀ ch, c'.pc = .del ch → s.m x = some ch)
    (hwp : ∀ ch, waitPc ch c'.pc → waitPc ch c.pc)
    (htk : ∀ ch, takenPc ch c.pc → ∃ k, s.chans[ch]? = some k ∧ k.closed = true)
    (hcl : ∀ ch, c'.pc ≠ .close ch) (hz : zeroPc c'.pc → zeroPc c.pc ∨ closeCall x s.log) (hnp : ∀ ch, c'.pc ≠ .wPut ch) : Inv2 x t := by
  have hfl : flying c' = flying c := by
    rw [fly_eq (h1.ko i c hi), fly_eq (h2.ko i c' (by rw [hlog]; exact get_set_self hi)), hfl]
  refine inv2_gen h1 h2 h hi hx hlog hk hx' (by rw [hfl]; exact id) (by rw [hfl]; intro a b; rw [a] at b; cases b) (.inl (by rw [hm])) hea hdl hwp
    (fun ch _ ho => .inl (by rw [hm]; exact ho)) (fun ch _ hp => ?_) (fun ch k _ hkc => ⟨k, by rw [hcs]; exact hkc, id, id, fun a b => .inl ⟨a, b⟩⟩)
    (fun ch _ _ hp => absurd hp (hcl ch)) hz ?_
  · obtain ⟨k, g1, g2⟩ := htk ch hp
    exact .inr ⟨k, by rw [hcs]; exact g1, .inr g2⟩
  · intro j d ch hj hdx hp
    rw [hlog] at hj
    rcases get_set_cases hj with ⟨rfl, rfl⟩ | ⟨_, hj⟩
    · exact absurd hp (hnp ch)
    · rw [hcs]; exact h.fc j d ch hj hdx hp

/-- Nobody else waits for the id of a `Wait` that has not returned. -/
theorem no_W {ix : Id → Nat} {x : Id} {s t : St V} (h2 : Inv ix t) (h : Inv2 x s) {i : Nat} {c c' : Call V} (hi : s.log[i]? = some c) (hx : c.idx = x)
    (hlog : t.log = s.log.set i c') (hf : flying c = true) (hp : ∀ ch, ¬ waitPc ch c'.pc) (ch : Nat) : ¬ W x t ch := by
  rintro ⟨j, d, hj, hdx, hd⟩
  have hfl := waitPc_fly (h2.ko j d hj) hd
  rw [hlog] at hj
  rcases get_set_cases hj with ⟨rfl, rfl⟩ | ⟨hne, hj⟩
  · exact hp ch hd
  · exact hne (h.al j i d c hj hi hfl hf hdx hx)

theorem chan_frame {l : List Chan} {ch0 : Nat} {k0 k1 : Chan} {x : Id} (h0 : l[ch0]? = some k0) (hk0 : k0.idx ≠ x) (hk1 : k1.idx = k0.idx) (ch : Nat) (k : Chan)
    (hk : k.idx = x) : (l.set ch0 k1)[ch]? = some k ↔ l[ch]? = some k := by
  by_cases e : ch = ch0
  · subst e
    rw [get_set_self h0, h0]
    constructor
    · intro hh; cases hh; exact absurd (hk1.symm.trans hk) hk0
    · intro hh; cases hh; exact absurd hk hk0
  · rw [get_set_ne e]

theorem inv2_other {ix : Id → Nat} {x : Id} {s t : St V} (h1 : Inv ix s) (h2 : Inv ix t) (h : Inv2 x s) {i : Nat} {c : Call V}
    (hi : s.log[i]? = some c) (ht : step ix s i c = some t) (hx : c.idx ≠ x) : Inv2 x t := by
  have hko := h1.ko i c hi
  have hxu : ∀ b, upd s.m c.idx b x = s.m x := fun b => by simp [upd, Ne.symm hx]
  have href := fun ch => h1.ref i c ch hi
  unfold step at ht
  cases hp : c.pc <;> simp only [hp] at ht
  case wEnter => split at ht <;> cases ht; exact inv2_frame h1 h2 h hi hx rfl rfl rfl fun _ _ _ => Iff.rfl
  case wLocked =>
    split at ht <;> cases ht
    · exact inv2_frame h1 h2 h hi hx rfl rfl rfl fun _ _ _ => Iff.rfl
    · refine inv2_frame h1 h2 h hi hx rfl rfl rfl fun ch k hk => ⟨fun hh => ?_, fun hh => ?_⟩
      · rcases get_app hh with ⟨hh, _⟩ | ⟨_, rfl⟩
        · exact hh
        · exact absurd hk hx
      · show (s.chans ++ [_])[ch]? = some k
        rw [List.getElem?_append_left (List.getElem?_eq_some_iff.1 hh).1]; exact hh
  case wPut ch => cases ht; exact inv2_frame h1 h2 h hi hx rfl rfl (hxu _) fun _ _ _ => Iff.rfl
  case wUnlock ch => cases ht; exact inv2_frame h1 h2 h hi hx rfl rfl rfl fun _ _ _ => Iff.rfl
  case select ch =>
    obtain ⟨k0, g1, g2⟩ := href ch (by rw [hp]; rfl)
    simp only [g1] at ht
    split at ht
    · cases ht
      exact inv2_frame h1 h2 h hi hx rfl rfl rfl fun ch k hk => chan_frame (k1 := { k0 with buf := none }) g1 (by rw [g2]; exact hx) rfl ch k hk
    · split at ht <;> cases ht
      exact inv2_frame h1 h2 h hi hx rfl rfl rfl fun _ _ _ => Iff.rfl
  case wClose ch =>
    obtain ⟨k0, g1, g2⟩ := href ch (by rw [hp]; rfl)
    simp only [g1] at ht
    cases ht
    exact inv2_frame h1 h2 h hi hx rfl rfl rfl fun ch k hk => chan_frame (k1 := { k0 with closed := true }) g1 (by rw [g2]; exact hx) rfl ch k hk
  case wDel r => cases ht; exact inv2_frame h1 h2 h hi hx rfl rfl (hxu _) fun _ _ _ => Iff.rfl
  case has n =>
    split at ht
    · cases ht; exact inv2_frame h1 h2 h hi hx rfl rfl rfl fun _ _ _ => Iff.rfl
    · cases n <;> cases ht <;> exact inv2_frame h1 h2 h hi hx rfl rfl rfl fun _ _ _ => Iff.rfl
  case lock => split at ht <;> cases ht; exact inv2_frame h1 h2 h hi hx rfl rfl rfl fun _ _ _ => Iff.rfl
  case get => split at ht <;> cases ht <;> exact inv2_frame h1 h2 h hi hx rfl rfl rfl fun _ _ _ => Iff.rfl
  case del ch => cases ht; exact inv2_frame h1 h2 h hi hx rfl rfl (hxu _) fun _ _ _ => Iff.rfl
  case send ch =>
    obtain ⟨k0, g1, g2⟩ := href ch (by rw [hp]; rfl)
    simp only [g1] at ht
    split at ht
    · cases ht; exact inv2_frame h1 h2 h hi hx rfl rfl rfl fun _ _ _ => Iff.rfl
    · split at ht <;> cases ht
      exact inv2_frame h1 h2 h hi hx rfl rfl rfl fun ch k hk => chan_frame (k1 := { k0 with buf := some i }) g1 (by rw [g2]; exact hx) rfl ch k hk
  case close ch =>
    obtain ⟨k0, g1, g2⟩ := href ch (by rw [hp]; rfl)
    simp only [g1] at ht
    split at ht
    · cases ht; exact inv2_frame h1 h2 h hi hx rfl rfl rfl fun _ _ _ => Iff.rfl
    · cases ht
      exact inv2_frame h1 h2 h hi hx rfl rfl rfl fun ch k hk => chan_frame (k1 := { k0 with closed := true }) g1 (by rw [g2]; exact hx) rfl ch k hk
  case unlock => cases ht; exact inv2_frame h1 h2 h hi hx rfl rfl rfl fun _ _ _ => Iff.rfl
  case wRet => cases ht
  case ret => cases ht

set_option maxHeartbeats 1000000 in
theorem inv2_self {ix : Id → Nat} {x : Id} {s t : St V} (h1 : Inv ix s) (h2 : Inv ix t) (h : Inv2 x s) {i : Nat} {c : Call V}
    (hi : s.log[i]? = some c) (ht : step ix s i c = some t) (hx : c.idx = x) : Inv2 x t := by
  have hko := h1.ko i c hi
  have fcs : ∀ {pc : Pc} (_ : ∀ ch, pc ≠ .wPut ch) (j : Nat) (d : Call V) (ch : Nat), (s.log.set i { c with pc := pc })[j]? = some d → d.idx = x → d.pc = .wPut ch →
      j ≠ i ∧ s.log[j]? = some d ∧ ∃ k, s.chans[ch]? = some k ∧ k.closed = false := by
    intro pc hpc j d ch hj hdx hd
    rcases get_set_cases hj with ⟨rfl, rfl⟩ | ⟨hne, hj⟩
    · exact absurd hd (hpc ch)
    · exact ⟨hne, hj, h.fc j d ch hj hdx hd⟩
  -- a channel changed by this call is not the new channel of another one
  have fcs' : ∀ {pc : Pc} {ch0 : Nat} {k1 : Chan} (_ : ∀ ch, pc ≠ .wPut ch) (_ : chanOf c.pc = some ch0) (j : Nat) (d : Call V) (ch : Nat),
      (s.log.set i { c with pc := pc })[j]? = some d → d.idx = x → d.pc = .wPut ch → ∃ k, (s.chans.set ch0 k1)[ch]? = some k ∧ k.closed = false := by
    intro pc ch0 k1 hpc hc0 j d ch hj hdx hd
    obtain ⟨hne, hj', k, g1, g2⟩ := fcs hpc j d ch hj hdx hd
    refine ⟨k, ?_, g2⟩
    rw [get_set_ne]
    · exact g1
    · rintro rfl
      exact (h1.fr j d ch hj' hd).2 i c hi (Ne.symm hne) hc0
  unfold step at ht
  cases hp : c.pc <;> simp only [hp] at ht
  case wEnter =>
    split at ht <;> cases ht
    refine inv2_pc h1 h2 h hi hx rfl rfl rfl rfl rfl ?_ ?_ ?_ ?_ ?_ ?_ ?_ ?_
    exacts [by rw [hp]; rfl, by simp [early, hp], by simp, by simp [waitPc], by simp [takenPc, hp], by simp, by simp [zeroPc], by simp]
  case wLocked =>
    have hm := h.m1 i c hi hx (by rw [hp]; trivial)
    rw [hx, hm] at ht
    cases ht
    have hfl : flying c = true := by rw [fly_eq hko, hp]; rfl
    have nw := no_W (t := _) h2 h hi hx rfl hfl (by simp [waitPc])
    refine inv2_gen h1 h2 h hi hx rfl rfl rfl ?_ ?_ (.inl rfl) ?_ ?_ ?_ (fun ch hw => absurd hw (nw ch)) (fun ch hw => absurd hw (nw ch))
      (fun ch k hw => absurd hw (nw ch)) (fun ch hw => absurd hw (nw ch)) ?_ ?_
    · exact fun _ => hfl
    · intro _ hh; rw [fly_eq (h2.ko i _ (get_set_self hi))] at hh; cases hh
    · simp [early, hp]
    · simp
    · simp [waitPc]
    · simp [zeroPc]
    · intro j d ch hj hdx hd
      rcases get_set_cases hj with ⟨rfl, rfl⟩ | ⟨hne, hj⟩
      · simp only [Pc.wPut.injEq] at hd; subst hd
        exact ⟨{ idx := x }, by show (s.chans ++ [_])[_]? = _; simp, rfl⟩
      · obtain ⟨k, g1, g2⟩ := h.fc j d ch hj hdx hd
        refine ⟨k, ?_, g2⟩
        show (s.chans ++ [_])[ch]? = some k
        rw [List.getElem?_append_left (List.getElem?_eq_some_iff.1 g1).1]; exact g1
  case wPut ch0 =>
    cases ht
    have hfl : flying c = true := by rw [fly_eq hko, hp]; rfl
    obtain ⟨f1, f2⟩ := h1.fr i c ch0 hi hp
    obtain ⟨k0, c1, c2⟩ := h.fc i c ch0 hi hx hp
    have hfl' : flying ({ c with pc := .wUnlock ch0 } : Call V) = true := by rw [fly_eq (h2.ko i _ (get_set_self hi))]; rfl
    have hWt : ∀ {ch}, W x (St.goto { s with m := upd s.m c.idx (some ch0) } i c (.wUnlock ch0)) ch → ch = ch0 := by
      rintro ch ⟨j, d, hj, hdx, hd⟩
      have hd' := waitPc_fly (h2.ko j d hj) hd
      rcases get_set_cases hj with ⟨rfl, rfl⟩ | ⟨hne, hj⟩
      · exact hd.symm
      · exact absurd (h.al j i d c hj hi hd' hfl hdx hx) hne
    have hmx : (St.goto { s with m := upd s.m c.idx (some ch0) } i c (.wUnlock ch0)).m x = some ch0 := by simp [St.goto, upd, hx]
    have hcc : closeCall x s.log → closeCall x (St.goto { s with m := upd s.m c.idx (some ch0) } i c (.wUnlock ch0)).log := fun hc => closeCall_set hi rfl rfl hc
    constructor
    · intro a b e f ha hb he hf hxe hxf
      have low : ∀ {a : Nat} {e : Call V}, (s.log.set i { c with pc := .wUnlock ch0 })[a]? = some e → flying e = true → e.idx = x → a = i := by
        intro a e ha he hxe
        rcases get_set_cases ha with ⟨rfl, _⟩ | ⟨_, ha⟩
        · rfl
        · exact h.al a i e c ha hi he hfl hxe hx
      rw [low ha he hxe, low hb hf hxf]
    · intro ha
      rw [ha i _ (get_set_self hi) hx] at hfl'
      cases hfl'
    · intro a e he hxe hpe
      have hfe : flying e = true := by
        rw [fly_eq (h2.ko a e he)]
        cases hq : e.pc <;> rw [hq] at hpe <;> first | rfl | cases hpe
      rcases get_set_cases he with ⟨rfl, rfl⟩ | ⟨hne, he⟩
      · cases hpe
      · exact absurd (h.al a i e c he hi hfe hfl hxe hx) hne
    · intro a e ch he hxe hpe
      rcases get_set_cases he with ⟨rfl, rfl⟩ | ⟨hne, he⟩
      · cases hpe
      · exact absurd (lock_one h1 he hi (by rw [hpe]; rfl) (by rw [hp]; rfl) (hxe.trans hx.symm)) hne
    · intro a e ch he hxe hpe
      obtain ⟨_, _, hh⟩ := fcs (by simp) a e ch he hxe hpe
      exact hh
    · intro ch hw
      rw [hWt hw]; exact .inl hmx
    · intro a e ch he hpt hpe hw
      have := hWt hw
      subst this
      rcases get_set_cases he with ⟨rfl, rfl⟩ | ⟨hne, he⟩
      · cases hpe
      · exact absurd (by rw [hpe]; rfl) (f2 a e he hne)
    · intro ch k hw hk hc hb
      have := hWt hw
      subst this
      have hk' : s.chans[ch]? = some k := hk
      rw [c1] at hk'; cases hk'
      rw [c2] at hc; cases hc
    · intro a e he hxe hpe
      rcases get_set_cases he with ⟨rfl, rfl⟩ | ⟨_, he⟩
      · cases hpe
      · exact hcc (h.z2 a e he hxe hpe)
  case wUnlock ch =>
    cases ht
    refine inv2_pc h1 h2 h hi hx rfl rfl rfl rfl rfl ?_ ?_ ?_ ?_ ?_ ?_ ?_ ?_
    exacts [by rw [hp]; rfl, by simp [early], by simp, by simp [waitPc, hp], by simp [takenPc, hp], by simp, by simp [zeroPc], by simp]
  case select ch0 =>
    obtain ⟨k0, g1, g2⟩ := h1.ref i c ch0 hi (by rw [hp]; rfl)
    simp only [g1] at ht
    have hfl : flying c = true := by rw [fly_eq hko, hp]; rfl
    split at ht
    · cases ht
      have nw := no_W (t := _) h2 h hi hx rfl hfl (by simp [waitPc])
      refine inv2_gen h1 h2 h hi hx rfl rfl rfl ?_ ?_ (.inl rfl) ?_ ?_ ?_ (fun ch hw => absurd hw (nw ch)) (fun ch hw => absurd hw (nw ch))
        (fun ch k hw => absurd hw (nw ch)) (fun ch hw => absurd hw (nw ch)) ?_ ?_
      · exact fun _ => hfl
      · intro _ hh; rw [fly_eq (h2.ko i _ (get_set_self hi))] at hh; cases hh
      · simp [early]
      · simp
      · simp [waitPc]
      · simp [zeroPc]
      · exact fcs' (by simp) (by rw [hp]; rfl)
    · rename_i hb
      split at ht <;> cases ht
      rename_i hc
      refine inv2_pc h1 h2 h hi hx rfl rfl rfl rfl rfl ?_ ?_ ?_ ?_ ?_ ?_ ?_ ?_
      exacts [by rw [hp]; rfl, by simp [early], by simp, by simp [waitPc], by simp [takenPc, hp], by simp,
        fun _ => .inr (h.z1 ch0 k0 ⟨i, c, hi, hx, by rw [hp]; rfl⟩ g1 hc hb), by simp]
  case wClose ch0 =>
    obtain ⟨k0, g1, g2⟩ := h1.ref i c ch0 hi (by rw [hp]; rfl)
    simp only [g1] at ht
    have hfl : flying c = true := by rw [fly_eq hko, hp]; rfl
    cases ht
    have nw := no_W (t := _) h2 h hi hx rfl hfl (by simp [waitPc])
    refine inv2_gen h1 h2 h hi hx rfl rfl rfl ?_ ?_ (.inl rfl) ?_ ?_ ?_ (fun ch hw => absurd hw (nw ch)) (fun ch hw => absurd hw (nw ch))
      (fun ch k hw => absurd hw (nw ch)) (fun ch hw => absurd hw (nw ch)) ?_ ?_
    · exact fun _ => hfl
    · intro _ hh; rw [fly_eq (h2.ko i _ (get_set_self hi))] at hh; cases hh
    · simp [early]
    · simp
    · simp [waitPc]
    · simp [zeroPc]
    · exact fcs' (by simp) (by rw [hp]; rfl)
  case wDel r =>
    cases ht
    have hfl : flying c = true := by rw [fly_eq hko, hp]; rfl
    have nw := no_W (t := _) h2 h hi hx rfl hfl (by simp [waitPc])
    have hmx : (St.goto { s with m := upd s.m c.idx none } i c (.wRet r)).m x = none := by simp [St.goto, upd, hx]
    refine inv2_gen h1 h2 h hi hx rfl rfl rfl ?_ ?_ (.inr hmx) ?_ ?_ ?_ (fun ch hw => absurd hw (nw ch)) (fun ch hw => absurd hw (nw ch))
      (fun ch k hw => absurd hw (nw ch)) (fun ch hw => absurd hw (nw ch)) ?_ ?_
    · exact fun _ => hfl
    · exact fun _ _ => hmx
    · simp [early]
    · simp
    · simp [waitPc]
    · intro hz; rw [hp]; cases r <;> simp_all [zeroPc]
    · intro j d ch hj hdx hd
      exact (fcs (by simp) j d ch hj hdx hd).2.2
  case has n =>
    split at ht
    · cases ht
      refine inv2_pc h1 h2 h hi hx rfl rfl rfl rfl rfl ?_ ?_ ?_ ?_ ?_ ?_ ?_ ?_
      exacts [by rw [hp]; rfl, by simp [early], by simp, by simp [waitPc], by simp [takenPc, hp], by simp, by simp [zeroPc], by simp]
    · cases n <;> cases ht
      · refine inv2_pc h1 h2 h hi hx rfl rfl rfl rfl rfl ?_ ?_ ?_ ?_ ?_ ?_ ?_ ?_
        exacts [by rw [hp]; rfl, by simp [early], by simp, by simp [waitPc], by simp [takenPc, hp], by simp, by simp [zeroPc], by simp]
      · refine inv2_pc h1 h2 h hi hx rfl rfl rfl rfl rfl ?_ ?_ ?_ ?_ ?_ ?_ ?_ ?_
        exacts [by rw [hp]; rfl, by simp [early], by simp, by simp [waitPc], by simp [takenPc, hp], by simp, by simp [zeroPc], by simp]
  case lock =>
    split at ht <;> cases ht
    refine inv2_pc h1 h2 h hi hx rfl rfl rfl rfl rfl ?_ ?_ ?_ ?_ ?_ ?_ ?_ ?_
    exacts [by rw [hp]; rfl, by simp [early], by simp, by simp [waitPc], by simp [takenPc, hp], by simp, by simp [zeroPc], by simp]
  case get =>
    split at ht <;> cases ht
    · rename_i ch hm
      refine inv2_pc h1 h2 h hi hx rfl rfl rfl rfl rfl ?_ ?_ ?_ ?_ ?_ ?_ ?_ ?_
      exacts [by rw [hp]; rfl, by simp [early], by intro ch' e; cases e; rw [← hx]; exact hm, by simp [waitPc],
        by simp [takenPc, hp], by simp, by simp [zeroPc], by simp]
    · refine inv2_pc h1 h2 h hi hx rfl rfl rfl rfl rfl ?_ ?_ ?_ ?_ ?_ ?_ ?_ ?_
      exacts [by rw [hp]; rfl, by simp [early], by simp, by simp [waitPc], by simp [takenPc, hp], by simp, by simp [zeroPc], by simp]
  case del ch0 =>
    cases ht
    have hdl := h.dl i c ch0 hi hx hp
    have main : ∀ pc, takenPc ch0 pc → (∀ ch, pc ≠ .del ch) → (∀ ch, pc = .close ch → isPut c = false) →
        Inv ix (St.goto { s with m := upd s.m c.idx none } i c pc) → Inv2 x (St.goto { s with m := upd s.m c.idx none } i c pc) := by
      intro pc hpc hnd hcl h2
      have hmx : (St.goto { s with m := upd s.m c.idx none } i c pc).m x = none := by simp [St.goto, upd, hx]
      have ok : ∀ ch, ch = ch0 → Ok (St.goto { s with m := upd s.m c.idx none } i c pc) ch := by
        rintro ch rfl
        exact .inl ⟨i, _, get_set_self hi, hpc⟩
      have hpw : ∀ ch, pc ≠ .wPut ch := by rintro ch rfl; cases hpc
      refine inv2_gen h1 h2 h hi hx rfl rfl rfl ?_ ?_ (.inr hmx) ?_ ?_ ?_ ?_ ?_ ?_ ?_ ?_ ?_
      · intro hf; rw [fly_eq (h2.ko i _ (get_set_self hi))] at hf; cases pc <;> first | (cases hpc; done) | (cases hf; done)
      · exact fun _ _ => hmx
      · intro he; cases pc <;> simp_all [early, takenPc]
      · intro ch e; exact absurd e (hnd ch)
      · intro ch e; cases pc <;> simp_all [waitPc, takenPc]
      · intro ch _ hm
        rcases hdl with e | e <;> rw [hm] at e <;> cases e
        exact .inr (ok _ rfl)
      · intro ch _ hpp
        rw [hp] at hpp
        exact ok ch hpp.symm
      · exact fun ch k _ hkc => ⟨k, hkc, id, id, fun a b => .inl ⟨a, b⟩⟩
      · intro ch _ hpt e
        have := hcl ch e
        rw [show isPut c = true from hpt] at this
        cases this
      · intro hz; cases pc <;> simp_all [zeroPc, takenPc]
      · intro j d ch hj hdx hd
        exact (fcs hpw j d ch hj hdx hd).2.2
    cases hk : c.kind
    case wait => simp [kindOk, hp, hk] at hko
    case put v =>
      simp only [hk] at h2
      exact main (.send ch0) rfl (by simp) (by simp) h2
    case close =>
      simp only [hk] at h2
      exact main (.close ch0) rfl (by simp) (by simp [isPut, hk]) h2
  case send ch0 =>
    obtain ⟨k0, g1, g2⟩ := h1.ref i c ch0 hi (by rw [hp]; rfl)
    simp only [g1] at ht
    split at ht
    · rename_i hc
      cases ht
      refine inv2_pc h1 h2 h hi hx rfl rfl rfl rfl rfl ?_ ?_ ?_ ?_ ?_ ?_ ?_ ?_
      exacts [by rw [hp]; rfl, by simp [early], by simp, by simp [waitPc],
        fun ch hh => by rw [hp] at hh; cases hh; exact ⟨k0, g1, hc⟩, by simp, by simp [zeroPc], by simp]
    · rename_i hc
      split at ht <;> cases ht
      have look : ∀ {ch : Nat} {k : Chan}, s.chans[ch]? = some k → ∃ k', (s.chans.set ch0 { k0 with buf := some i })[ch]? = some k' ∧ k'.closed = k.closed ∧
          (k'.buf = none → k.buf = none) ∧ (ch = ch0 → k'.buf ≠ none) := by
        intro ch k hk
        by_cases e : ch = ch0
        · subst e
          rw [g1] at hk; cases hk
          exact ⟨_, get_set_self g1, rfl, by simp, by simp⟩
        · exact ⟨k, by rw [get_set_ne e]; exact hk, rfl, id, fun a => absurd a e⟩
      refine inv2_gen h1 h2 h hi hx rfl rfl rfl ?_ ?_ (.inl rfl) ?_ ?_ ?_ ?_ ?_ ?_ ?_ ?_ ?_
      · intro hf; rw [fly_eq (h2.ko i _ (get_set_self hi))] at hf; cases hf
      · intro hf; rw [fly_eq hko, hp] at hf; cases hf
      · simp [early]
      · simp
      · simp [waitPc]
      · exact fun ch _ hm => .inl hm
      · intro ch _ hpp
        rw [hp] at hpp
        obtain ⟨k', e1, _, _, e4⟩ := look g1
        cases hpp
        exact .inr ⟨k', e1, .inl (e4 rfl)⟩
      · intro ch k _ hkc
        obtain ⟨k', e1, e2, e3, _⟩ := look hkc
        exact ⟨k', e1, fun a b => a (e3 b), fun a => by rw [e2]; exact a, fun a b => .inl ⟨by rw [← e2]; exact a, e3 b⟩⟩
      · intro ch _ _ e
        cases e
        obtain ⟨k', e1, _, _, e4⟩ := look g1
        exact ⟨k', e1, e4 rfl⟩
      · simp [zeroPc]
      · exact fcs' (by simp) (by rw [hp]; rfl)
  case close ch0 =>
    obtain ⟨k0, g1, g2⟩ := h1.ref i c ch0 hi (by rw [hp]; rfl)
    simp only [g1] at ht
    split at ht
    · rename_i hc
      cases ht
      refine inv2_pc h1 h2 h hi hx rfl rfl rfl rfl rfl ?_ ?_ ?_ ?_ ?_ ?_ ?_ ?_
      exacts [by rw [hp]; rfl, by simp [early], by simp, by simp [waitPc],
        fun ch hh => by rw [hp] at hh; cases hh; exact ⟨k0, g1, hc⟩, by simp, by simp [zeroPc], by simp]
    · cases ht
      have hWt : ∀ {ch}, W x (St.goto { s with chans := s.chans.set ch0 { k0 with closed := true } } i c (.unlock false)) ch → W x s ch := by
        rintro ch ⟨j, d, hj, hdx, hd⟩
        rcases get_set_cases hj with ⟨rfl, rfl⟩ | ⟨hne, hj⟩
        · cases hd
        · exact ⟨j, d, hj, hdx, hd⟩
      refine inv2_gen h1 h2 h hi hx rfl rfl rfl ?_ ?_ (.inl rfl) ?_ ?_ ?_ ?_ ?_ ?_ ?_ ?_ ?_
      · intro hf; rw [fly_eq (h2.ko i _ (get_set_self hi))] at hf; cases hf
      · intro hf; rw [fly_eq hko, hp] at hf; cases hf
      · simp [early]
      · simp
      · simp [waitPc]
      · exact fun ch _ hm => .inl hm
      · intro ch _ hpp
        rw [hp] at hpp
        cases hpp
        exact .inr ⟨_, get_set_self g1, .inr rfl⟩
      · intro ch k hw hkc
        by_cases e : ch = ch0
        · subst e
          rw [g1] at hkc; cases hkc
          refine ⟨_, get_set_self g1, id, fun _ => rfl, fun _ hb => ?_⟩
          cases hk : c.kind
          case wait => simp [kindOk, hp, hk] at hko
          case put v =>
            obtain ⟨k', e1, e2⟩ := h.bf i c ch hi (by simp [isPut, hk]) hp (hWt hw)
            rw [g1] at e1; cases e1
            exact absurd hb e2
          case close => exact .inr ⟨i, c, hi, hk, hx⟩
        · exact ⟨k, by show (s.chans.set ch0 _)[ch]? = _; rw [get_set_ne e]; exact hkc, id, id, fun a b => .inl ⟨a, b⟩⟩
      · simp
      · simp [zeroPc]
      · exact fcs' (by simp) (by rw [hp]; rfl)
  case unlock =>
    cases ht
    refine inv2_pc h1 h2 h hi hx rfl rfl rfl rfl rfl ?_ ?_ ?_ ?_ ?_ ?_ ?_ ?_
    exacts [by rw [hp]; rfl, by simp [early], by simp, by simp [waitPc], by simp [takenPc, hp], by simp, by simp [zeroPc], by simp]
  case wRet => cases ht
  case ret => cases ht

theorem inv2_step {ix : Id → Nat} {x : Id} {s t : St V} (h1 : Inv ix s) (h2 : Inv ix t) (h : Inv2 x s) {i : Nat} {c : Call V}
    (hi : s.log[i]? = some c) (ht : step ix s i c = some t) : Inv2 x t := by
  by_cases hx : c.idx = x
  · exact inv2_self h1 h2 h hi ht hx
  · exact inv2_other h1 h2 h hi ht hx

/-- A new call. -/
theorem inv2_start {ix : Id → Nat} {x : Id} {s : St V} (h1 : Inv ix s) (h : Inv2 x s) {c : Call V} (h2 : chanOf c.pc = none) (hz : ¬ zeroPc c.pc)
    (hs : flying c = true → c.idx = x → ∀ (i : Nat) (d : Call V), s.log[i]? = some d → d.idx = x → flying d = false)
    (he : early c.pc → flying c = true) :
    Inv2 x { s with log := s.log ++ [c] } := by
  have ap : ∀ {p : Nat} {d : Call V}, s.log[p]? = some d → (s.log ++ [c])[p]? = some d := fun hd => by
    rw [List.getElem?_append_left (List.getElem?_eq_some_iff.1 hd).1]; exact hd
  have hW : ∀ {ch}, W x { s with log := s.log ++ [c] } ch → W x s ch := by
    rintro ch ⟨j, d, hj, hd, hp⟩
    rcases get_app hj with ⟨hj, _⟩ | ⟨_, rfl⟩
    · exact ⟨j, d, hj, hd, hp⟩
    · rw [waitPc_chan hp] at h2; cases h2
  have hcc : closeCall x s.log → closeCall x (s.log ++ [c]) := fun ⟨j, d, hj, hd⟩ => ⟨j, d, ap hj, hd⟩
  constructor
  · intro a b e f ha hb hfe hff hxe hxf
    replace ha := get_app ha
    replace hb := get_app hb
    rcases ha with ⟨ha, _⟩ | ⟨ea, rfl⟩ <;> rcases hb with ⟨hb, _⟩ | ⟨eb, rfl⟩
    · exact h.al a b e f ha hb hfe hff hxe hxf
    · rw [hs hff hxf a e ha hxe] at hfe; cases hfe
    · rw [hs hfe hxe b f hb hxf] at hff; cases hff
    · rw [ea, eb]
  · exact fun ha => h.m0 fun a e hae hxe => ha a e (ap hae) hxe
  · intro a e hae hxe hp
    rcases get_app hae with ⟨hae, _⟩ | ⟨_, rfl⟩
    · exact h.m1 a e hae hxe hp
    · exact h.m0 (hs (he hp) hxe)
  · intro a e ch hae hxe hp
    rcases get_app hae with ⟨hae, _⟩ | ⟨_, rfl⟩
    · exact h.dl a e ch hae hxe hp
    · rw [hp] at h2; cases h2
  · intro a e ch hae hxe hp
    rcases get_app hae with ⟨hae, _⟩ | ⟨_, rfl⟩
    · exact h.fc a e ch hae hxe hp
    · rw [hp] at h2; cases h2
  · intro ch hw
    rcases h.ok ch (hW hw) with ho | ⟨j, d, hj, hdp⟩ | ho
    · exact .inl ho
    · exact .inr (.inl ⟨j, d, ap hj, hdp⟩)
    · exact .inr (.inr ho)
  · intro a e ch hae hpt hp hw
    rcases get_app hae with ⟨hae, _⟩ | ⟨_, rfl⟩
    · exact h.bf a e ch hae hpt hp (hW hw)
    · rw [hp] at h2; cases h2
  · exact fun ch k hw hk hc hb => hcc (h.z1 ch k (hW hw) hk hc hb)
  · intro a e hae hxe hp
    rcases get_app hae with ⟨hae, _⟩ | ⟨_, rfl⟩
    · exact hcc (h.z2 a e hae hxe hp)
    · exact absurd hp hz

theorem inv2_abort {ix : Id → Nat} {x : Id} {s : St V} (h1 : Inv ix s) (h : Inv2 x s) {i ch : Nat} {c : Call V} (hi : s.log[i]? = some c) (hp : c.pc = .select ch) :
    Inv2 x (s.goto i c (.wClose ch)) := by
  have h2 := inv_abort h1 hi hp
  by_cases hx : c.idx = x
  · refine inv2_pc h1 h2 h hi hx rfl rfl rfl rfl rfl ?_ ?_ ?_ ?_ ?_ ?_ ?_ ?_
    exacts [by rw [hp]; rfl, by simp [early], by simp, by simp [waitPc], by simp [takenPc, hp], by simp, by simp [zeroPc], by simp]
  · exact inv2_frame h1 h2 h hi hx rfl rfl rfl fun _ _ _ => Iff.rfl

theorem Serial.append {ix : Id → Nat} {loops : Nat} {x : Id} {s t : St V} {as bs : List (Act V)} (h : Serial ix loops x s (as ++ bs))
    (ht : exec ix loops s as = some t) : Serial ix loops x s as ∧ Serial ix loops x t bs := by
  induction as generalizing s with
  | nil => simp only [exec, Option.some.injEq] at ht; subst ht; exact ⟨trivial, h⟩
  | cons a as ih =>
    simp only [exec] at ht
    cases ha : act ix loops s a with
    | none => simp [ha] at ht
    | some u =>
      simp only [ha, Option.bind_some] at ht
      obtain ⟨g1, g2⟩ := ih (h.2 u ha) ht
      exact ⟨⟨h.1, fun v hv => by rw [ha] at hv; cases hv; exact g1⟩, g2⟩

theorem inv2_act {ix : Id → Nat} {loops : Nat} {x : Id} {s t : St V} (h1 : Inv ix s) (h : Inv2 x s) {a : Act V}
    (hs : (∃ timed ctx, a = .wait timed ctx x) → ∀ (i : Nat) (c : Call V), s.log[i]? = some c → isWait c = true → c.idx = x → ∃ r, c.pc = .wRet r)
    (ht : act ix loops s a = some t) : Inv2 x t := by
  have h2 := inv_act h1 ht
  rcases act_cases ht with ⟨b1, b2, y, rfl, rfl⟩ | ⟨_, _, _, rfl⟩ | ⟨_, _, rfl⟩ | ⟨i, c, _, hi, hst⟩ | ⟨i, c, ch, _, hi, hp, _, rfl⟩
  · refine inv2_start h1 h rfl id ?_ (fun _ => rfl)
    intro _ hx i d hi hdx
    have hx : y = x := hx
    subst hx
    cases hk : isWait d with
    | true =>
      obtain ⟨r, hr⟩ := hs ⟨b1, b2, rfl⟩ i d hi hk hdx
      rw [fly_eq (h1.ko i d hi), hr]; rfl
    | false =>
      cases hq : d.kind <;> simp_all [isWait, flying]
  · exact inv2_start h1 h rfl id (fun hf => by cases hf) (fun hf => by cases hf)
  · exact inv2_start h1 h rfl id (fun hf => by cases hf) (fun hf => by cases hf)
  · exact inv2_step h1 h2 h hi hst
  · exact inv2_abort h1 h hi hp

theorem inv2_exec {ix : Id → Nat} {loops : Nat} {x : Id} {s t : St V} (h1 : Inv ix s) (h : Inv2 x s) {as : List (Act V)} (hs : Serial ix loops x s as)
    (ht : exec ix loops s as = some t) : Inv2 x t := by
  induction as generalizing s with
  | nil => simp only [exec, Option.some.injEq] at ht; subst ht; exact h
  | cons a as ih =>
    simp only [exec] at ht
    cases ha : act ix loops s a with
    | none => simp [ha] at ht
    | some u => simp only [ha, Option.bind_some] at ht; exact ih (inv_act h1 ha) (inv2_act h1 h hs.1 ha) (hs.2 u ha) ht

/-- Before a `CloseAndPut` or `Close` has taken its channel. -/
def preP : Pc → Bool
  | .has _ | .lock | .get | .del _ => true
  | _ => false

/-- While call `w` waits in `select` on `ch`, `ch` is not put (again) into the map. -/
theorem m_mono {ix : Id → Nat} {x : Id} {s t : St V} (h1 : Inv ix s) (h : Inv2 x s) {i w ch : Nat} {c d : Call V}
    (hi : s.log[i]? = some c) (ht : step ix s i c = some t) (hw : s.log[w]? = some d) (hdx : d.idx = x) (hd : d.pc = .select ch)
    (hm : t.m x = some ch) : s.m x = some ch ∧ ∀ ch', c.idx = x → c.pc ≠ .del ch' := by
  have hfd : flying d = true := by rw [fly_eq (h1.ko w d hw), hd]; rfl
  have nowput : ∀ ch', c.pc = .wPut ch' → c.idx ≠ x := by
    intro ch' hp hx
    have hfc : flying c = true := by rw [fly_eq (h1.ko i c hi), hp]; rfl
    have := h.al i w c d hi hw hfc hfd hx hdx
    subst this
    rw [hi] at hw; cases hw
    rw [hd] at hp; cases hp
  unfold step at ht
  cases hp : c.pc <;> simp only [hp] at ht
  case wPut ch' =>
    cases ht
    have hx := nowput ch' hp
    simp only [St.goto, upd, Ne.symm hx, if_false] at hm
    exact ⟨hm, fun _ e => absurd e hx⟩
  case wDel r =>
    cases ht
    by_cases hx : x = c.idx
    · simp [St.goto, upd, hx] at hm
    · simp only [St.goto, upd, hx, if_false] at hm
      exact ⟨hm, fun _ e => absurd e.symm hx⟩
  case del ch' =>
    cases ht
    by_cases hx : x = c.idx
    · simp [St.goto, upd, hx] at hm
    · simp only [St.goto, upd, hx, if_false] at hm
      exact ⟨hm, fun _ e => absurd e.symm hx⟩
  all_goals first
    | (cases ht; done)
    | (cases ht; exact ⟨hm, fun _ _ e => by cases e⟩)
    | (split at ht <;> first | (cases ht; done) | (cases ht; exact ⟨hm, fun _ _ e => by cases e⟩) | (split at ht <;> cases ht <;> exact ⟨hm, fun _ _ e => by cases e⟩) |
        (split at ht <;> first | (cases ht; done) | (cases ht; exact ⟨hm, fun _ _ e => by cases e⟩) | (split at ht <;> cases ht <;> exact ⟨hm, fun _ _ e => by cases e⟩)))

/-- Where a call that keeps waiting in `select` was before. -/
theorem select_back {ix : Id → Nat} {s t : St V} {i w ch : Nat} {c d : Call V} (hi : s.log[i]? = some c) (ht : step ix s i c = some t)
    (hw : s.log[w]? = some d) (hd : d.pc = .select ch) {d' : Call V} (hw' : t.log[w]? = some d') (hd' : d'.pc = .select ch) : i ≠ w := by
  rintro rfl
  rw [hi] at hw; cases hw
  unfold step at ht
  simp only [hd] at ht
  split at ht
  · cases ht
  · split at ht
    · cases ht
      rw [show (_ : St V).log = s.log.set i _ from rfl, get_set_self hi] at hw'
      cases hw'; cases hd'
    · split at ht <;> cases ht
      rw [show (_ : St V).log = s.log.set i _ from rfl, get_set_self hi] at hw'
      cases hw'; cases hd'

/-- What a step does to the log. -/
theorem step_log {ix : Id → Nat} {s t : St V} {i : Nat} {c : Call V} (ht : step ix s i c = some t) :
    ∃ pc, t.log = s.log.set i { c with pc := pc } := by
  unfold step at ht
  split at ht
  all_goals first
    | (cases ht; done)
    | (cases ht; exact ⟨_, rfl⟩)
    | (split at ht <;> first | (cases ht; done) | (cases ht; exact ⟨_, rfl⟩) | (split at ht <;> first | (cases ht; done) | (cases ht; exact ⟨_, rfl⟩) |
        (split at ht <;> first | (cases ht; done) | (cases ht; exact ⟨_, rfl⟩))))

/-- A call keeps its kind and id. -/
theorem log_keep {ix : Id → Nat} {loops : Nat} {s t : St V} {a : Act V} (ht : act ix loops s a = some t) {i : Nat} {c : Call V} (hi : s.log[i]? = some c) :
    ∃ c', t.log[i]? = some c' ∧ c'.kind = c.kind ∧ c'.idx = c.idx := by
  have ap : ∀ e : Call V, (s.log ++ [e])[i]? = some c := fun e => by
    rw [List.getElem?_append_left (List.getElem?_eq_some_iff.1 hi).1]; exact hi
  have sp : ∀ (j : Nat) (e : Call V) (pc : Pc), s.log[j]? = some e → ∃ c', (s.log.set j { e with pc := pc })[i]? = some c' ∧ c'.kind = c.kind ∧ c'.idx = c.idx := by
    intro j e pc he
    by_cases hj : i = j
    · subst hj; rw [hi] at he; cases he
      exact ⟨_, get_set_self hi, rfl, rfl⟩
    · exact ⟨c, by rw [get_set_ne hj]; exact hi, rfl, rfl⟩
  rcases act_cases ht with ⟨_, _, _, _, rfl⟩ | ⟨_, _, _, rfl⟩ | ⟨_, _, rfl⟩ | ⟨j, e, _, he, hs⟩ | ⟨j, e, ch, _, he, hp, _, rfl⟩
  · exact ⟨c, ap _, rfl, rfl⟩
  · exact ⟨c, ap _, rfl, rfl⟩
  · exact ⟨c, ap _, rfl, rfl⟩
  · obtain ⟨pc, hl⟩ := step_log hs
    rw [hl]; exact sp j e pc he
  · exact sp j e _ he

theorem log_keeps {ix : Id → Nat} {loops : Nat} {s t : St V} {as : List (Act V)} (ht : exec ix loops s as = some t) {i : Nat} {c : Call V} (hi : s.log[i]? = some c) :
    ∃ c', t.log[i]? = some c' ∧ c'.kind = c.kind ∧ c'.idx = c.idx := by
  induction as generalizing s c with
  | nil => simp only [exec, Option.some.injEq] at ht; subst ht; exact ⟨c, hi, rfl, rfl⟩
  | cons a as ih =>
    simp only [exec] at ht
    cases ha : act ix loops s a with
    | none => simp [ha] at ht
    | some u =>
      simp only [ha, Option.bind_some] at ht
      obtain ⟨c1, g1, g2, g3⟩ := log_keep ha hi
      obtain ⟨c2, g4, g5, g6⟩ := ih ht g1
      exact ⟨c2, g4, g5.trans g2, g6.trans g3⟩

/-- Call `p` (a `CloseAndPut` or `Close`) has not passed by the channel `ch` call `w` waits on. -/
def J (x : Id) (s : St V) (p w ch : Nat) : Prop :=
  ∃ d e, s.log[w]? = some d ∧ d.idx = x ∧ isWait d = true ∧ s.log[p]? = some e ∧ e.idx = x ∧ isWait e = false ∧
    (∀ ch', d.pc = .select ch' → ch' = ch) ∧ (∀ ch', d.pc ≠ .wUnlock ch') ∧ ¬ early d.pc ∧
    (d.pc = .select ch → s.m x = some ch → preP e.pc = true)

/-- The next point of a call that has passed `Get`. -/
theorem late_step {ix : Id → Nat} {s t : St V} {i ch : Nat} {c c' : Call V} (hi : s.log[i]? = some c) (ht : step ix s i c = some t) (hk : kindOk c = true)
    (hw : isWait c = true) (h1 : ∀ ch', c.pc = .select ch' → ch' = ch) (h2 : ∀ ch', c.pc ≠ .wUnlock ch') (h3 : ¬ early c.pc) (hc' : t.log[i]? = some c') :
    (∀ ch', c'.pc ≠ .select ch') ∧ (∀ ch', c'.pc ≠ .wUnlock ch') ∧ ¬ early c'.pc := by
  have key : ∀ (u : St V) (pc : Pc), (∀ ch', pc ≠ .select ch') → (∀ ch', pc ≠ .wUnlock ch') → ¬ early pc → u.log = s.log.set i { c with pc := pc } →
      u.log[i]? = some c' → (∀ ch', c'.pc ≠ .select ch') ∧ (∀ ch', c'.pc ≠ .wUnlock ch') ∧ ¬ early c'.pc := by
    intro u pc k1 k2 k3 hu hh
    rw [hu, get_set_self hi] at hh; cases hh
    exact ⟨k1, k2, k3⟩
  unfold step at ht
  cases hp : c.pc <;> simp only [hp] at ht
  case wEnter => exact absurd (by rw [hp]; trivial) h3
  case wLocked => exact absurd (by rw [hp]; trivial) h3
  case wPut => exact absurd (by rw [hp]; trivial) h3
  case wUnlock ch' => exact absurd hp (h2 ch')
  case select =>
    split at ht
    · cases ht
    · split at ht
      · cases ht; exact key _ _ (by simp) (by simp) id rfl hc'
      · split at ht <;> cases ht
        exact key _ _ (by simp) (by simp) id rfl hc'
  case wClose =>
    split at ht <;> cases ht
    exact key _ _ (by simp) (by simp) id rfl hc'
  case wDel => cases ht; exact key _ _ (by simp) (by simp) id rfl hc'
  case wRet => cases ht
  all_goals
    exfalso
    cases hq : c.kind <;> simp_all [kindOk, isWait]

theorem J_act {ix : Id → Nat} {loops : Nat} {x : Id} {s t : St V} (h1 : Inv ix s) (h : Inv2 x s) {p w ch : Nat} (hJ : J x s p w ch) {a : Act V}
    (ht : act ix loops s a = some t) : J x t p w ch := by
  obtain ⟨d, e, hw, hdx, hdw, hp, hex, hew, a1, a2, a3, a4⟩ := hJ
  rcases act_cases ht with ⟨_, _, _, _, rfl⟩ | ⟨_, _, _, rfl⟩ | ⟨_, _, rfl⟩ | ⟨i, c, _, hi, hst⟩ | ⟨i, c, ch0, _, hi, hpc, ⟨b, hkb⟩, rfl⟩
  case inr.inr.inr.inl =>
    obtain ⟨pc, hlog⟩ := step_log hst
    by_cases hiw : i = w
    · subst hiw
      rw [hi] at hw; cases hw
      have hc' : t.log[i]? = some { d with pc := pc } := by rw [hlog]; exact get_set_self hi
      obtain ⟨k1, k2, k3⟩ := late_step hi hst (h1.ko i d hi) hdw a1 a2 a3 hc'
      have hpi : p ≠ i := by
        rintro rfl; rw [hi] at hp; cases hp; rw [hdw] at hew; cases hew
      exact ⟨_, e, hc', hdx, hdw, by rw [hlog, get_set_ne hpi]; exact hp, hex, hew, fun ch' hh => absurd hh (k1 ch'), k2, k3, fun hh => absurd hh (k1 ch)⟩
    · have hw' : t.log[w]? = some d := by rw [hlog, get_set_ne (Ne.symm hiw)]; exact hw
      by_cases hip : i = p
      · subst hip
        rw [hi] at hp; cases hp
        refine ⟨d, { e with pc := pc }, hw', hdx, hdw, by rw [hlog]; exact get_set_self hi, hex, hew, a1, a2, a3, fun hd hm => ?_⟩
        obtain ⟨m1, m2⟩ := m_mono h1 h hi hst hw hdx hd hm
        have hpre := a4 hd m1
        have hmx : s.m e.idx = some ch := by rw [hex]; exact m1
        have fin : ∀ (u : St V) (pc' : Pc), preP pc' = true → u.log = s.log.set i { e with pc := pc' } → u = t → preP pc = true := by
          intro u pc' k1 k2 k3
          subst k3
          rw [hlog] at k2
          have := congrArg (fun l => l[i]?) k2
          simp only [get_set_self hi, Option.some.injEq, Call.mk.injEq, true_and] at this
          rw [this]; exact k1
        unfold step at hst
        cases hq : e.pc <;> rw [hq] at hpre <;> try (cases hpre; done)
        case has n =>
          simp only [hq, hmx, Option.isSome_some, if_true, Option.some.injEq] at hst
          exact fin _ .lock rfl rfl hst
        case lock =>
          simp only [hq] at hst
          split at hst <;> cases hst
          exact fin _ .get rfl rfl rfl
        case get =>
          simp only [hq, hmx, Option.some.injEq] at hst
          exact fin _ (.del ch) rfl rfl hst
        case del ch' => exact absurd hq (m2 ch' hex)
      · have hp' : t.log[p]? = some e := by rw [hlog, get_set_ne (Ne.symm hip)]; exact hp
        exact ⟨d, e, hw', hdx, hdw, hp', hex, hew, a1, a2, a3, fun hd hm => a4 hd (m_mono h1 h hi hst hw hdx hd hm).1⟩
  case inr.inr.inr.inr =>
    have hip : p ≠ i := by
      rintro rfl; rw [hi] at hp; cases hp; simp [isWait, hkb] at hew
    have hp' : (s.goto i c (.wClose ch0)).log[p]? = some e := by show (s.log.set i _)[p]? = _; rw [get_set_ne hip]; exact hp
    by_cases hiw : i = w
    · subst hiw
      rw [hi] at hw; cases hw
      exact ⟨_, e, get_set_self hi, hdx, hdw, hp', hex, hew, by simp, by simp, id, by simp⟩
    · have hw' : (s.goto i c (.wClose ch0)).log[w]? = some d := by show (s.log.set i _)[w]? = _; rw [get_set_ne (Ne.symm hiw)]; exact hw
      exact ⟨d, e, hw', hdx, hdw, hp', hex, hew, a1, a2, a3, a4⟩
  all_goals
    refine ⟨d, e, ?_, hdx, hdw, ?_, hex, hew, a1, a2, a3, a4⟩
    · show (s.log ++ [_])[_]? = _
      rw [List.getElem?_append_left (List.getElem?_eq_some_iff.1 hw).1]; exact hw
    · show (s.log ++ [_])[_]? = _
      rw [List.getElem?_append_left (List.getElem?_eq_some_iff.1 hp).1]; exact hp

theorem J_exec {ix : Id → Nat} {loops : Nat} {x : Id} {s t : St V} (h1 : Inv ix s) (h : Inv2 x s) {p w ch : Nat} (hJ : J x s p w ch) {as : List (Act V)}
    (hs : Serial ix loops x s as) (ht : exec ix loops s as = some t) : J x t p w ch := by
  induction as generalizing s with
  | nil => simp only [exec, Option.some.injEq] at ht; subst ht; exact hJ
  | cons a as ih =>
    simp only [exec] at ht
    cases ha : act ix loops s a with
    | none => simp [ha] at ht
    | some u => simp only [ha, Option.bind_some] at ht; exact ih (inv_act h1 ha) (inv2_act h1 h hs.1 ha) (J_act h1 h hJ ha) (hs.2 u ha) ht

theorem exec_append (ix : Id → Nat) (loops : Nat) (s : St V) (as bs : List (Act V)) :
    exec ix loops s (as ++ bs) = (exec ix loops s as).bind fun t => exec ix loops t bs := by
  induction as generalizing s with
  | nil => rfl
  | cons a as ih =>
    simp only [List.cons_append, exec]
    cases act ix loops s a with
    | none => rfl
    | some u => exact ih u

/-- Where a `Wait` goes from its `select`. -/
def afterSel (ch : Nat) (pc : Pc) : Prop := pc = .select ch ∨ pc = .wClose ch ∨ (∃ r, pc = .wDel r) ∨ ∃ r, pc = .wRet r

theorem JC_act {ix : Id → Nat} {loops : Nat} {s t : St V} {w ch : Nat} {c : Call V} (hw : s.log[w]? = some c) (hc : afterSel ch c.pc) {a : Act V}
    (ht : act ix loops s a = some t) : ∃ d, t.log[w]? = some d ∧ afterSel ch d.pc := by
  have ap : ∀ e : Call V, (s.log ++ [e])[w]? = some c := fun e => by
    rw [List.getElem?_append_left (List.getElem?_eq_some_iff.1 hw).1]; exact hw
  rcases act_cases ht with ⟨_, _, _, _, rfl⟩ | ⟨_, _, _, rfl⟩ | ⟨_, _, rfl⟩ | ⟨j, e, _, he, hs⟩ | ⟨j, e, ch', _, he, hp, _, rfl⟩
  · exact ⟨c, ap _, hc⟩
  · exact ⟨c, ap _, hc⟩
  · exact ⟨c, ap _, hc⟩
  · by_cases hj : w = j
    · subst hj; rw [hw] at he; cases he
      unfold step at hs
      rcases hc with hc | hc | ⟨r, hc⟩ | ⟨r, hc⟩ <;> simp only [hc] at hs
      · split at hs
        · cases hs
        · split at hs
          · cases hs; exact ⟨_, get_set_self hw, .inr (.inr (.inl ⟨_, rfl⟩))⟩
          · split at hs <;> cases hs
            exact ⟨_, get_set_self hw, .inr (.inr (.inl ⟨_, rfl⟩))⟩
      · split at hs <;> cases hs
        exact ⟨_, get_set_self hw, .inr (.inr (.inl ⟨_, rfl⟩))⟩
      · cases hs; exact ⟨_, get_set_self hw, .inr (.inr (.inr ⟨_, rfl⟩))⟩
      · cases hs
    · obtain ⟨pc, hl⟩ := step_log hs
      exact ⟨c, by rw [hl, get_set_ne hj]; exact hw, hc⟩
  · by_cases hj : w = j
    · subst hj; rw [hw] at he; cases he
      refine ⟨_, get_set_self hw, .inr (.inl ?_)⟩
      rcases hc with hc | hc | ⟨r, hc⟩ | ⟨r, hc⟩ <;> rw [hp] at hc <;> cases hc
      rfl
    · exact ⟨c, by show (s.log.set j _)[w]? = _; rw [get_set_ne hj]; exact hw, hc⟩

theorem JC_exec {ix : Id → Nat} {loops : Nat} {s t : St V} {w ch : Nat} {c : Call V} (hw : s.log[w]? = some c) (hc : afterSel ch c.pc) {as : List (Act V)}
    (ht : exec ix loops s as = some t) : ∃ d, t.log[w]? = some d ∧ afterSel ch d.pc := by
  induction as generalizing s c with
  | nil => simp only [exec, Option.some.injEq] at ht; subst ht; exact ⟨c, hw, hc⟩
  | cons a as ih =>
    simp only [exec] at ht
    cases ha : act ix loops s a with
    | none => simp [ha] at ht
    | some u =>
      simp only [ha, Option.bind_some] at ht
      obtain ⟨d, h1, h2⟩ := JC_act hw hc ha
      exact ih h1 h2 ht

/-- A test for `Serial`. -/
def serialB (ix : Id → Nat) (loops : Nat) (x : Id) : St V → List (Act V) → Bool
  | _, [] => true
  | s, a :: as =>
    (match a with
      | .wait _ _ y => y != x || s.log.all fun c => !isWait c || c.idx != x || (match c.pc with | .wRet _ => true | _ => false)
      | _ => true) &&
    match act ix loops s a with
    | none => true
    | some t => serialB ix loops x t as

theorem serial_of {ix : Id → Nat} {loops : Nat} {x : Id} {s : St V} {as : List (Act V)} (h : serialB ix loops x s as = true) : Serial ix loops x s as := by
  induction as generalizing s with
  | nil => trivial
  | cons a as ih =>
    simp only [serialB, Bool.and_eq_true] at h
    refine ⟨?_, fun t ht => ih (by rw [ht] at h; exact h.2)⟩
    rintro ⟨b1, b2, rfl⟩ i c hi hw hx
    have := h.1
    simp only [bne_self_eq_false, Bool.false_or, List.all_eq_true] at this
    have hc := this c (List.mem_of_getElem? hi)
    simp only [hw, hx, bne_self_eq_false, Bool.not_true, Bool.false_or] at hc
    split at hc
    · rename_i r hr; exact ⟨r, hr⟩
    · cases hc

/-- What is closed, and what has been read from closed channels, was closed by somebody. -/
structure Inv3 (s : St V) : Prop where
  cl : ∀ (ch : Nat) (k : Chan), s.chans[ch]? = some k → k.closed = true → Closer k.idx s
  zr : ∀ (i : Nat) (c : Call V), s.log[i]? = some c → zeroPc c.pc → Closer c.idx s

theorem inv3_pc {s t : St V} (h : Inv3 s) {i : Nat} {c c' : Call V} (hi : s.log[i]? = some c) (hlog : t.log = s.log.set i c') (hk : c'.kind = c.kind)
    (hx : c'.idx = c.idx) (hne : c.pc = .wDel .error ∨ c.pc = .wRet .error → c'.pc = .wDel .error ∨ c'.pc = .wRet .error)
    (hcl : ∀ (ch : Nat) (k : Chan), t.chans[ch]? = some k → k.closed = true → (∃ k', s.chans[ch]? = some k' ∧ k'.idx = k.idx ∧ k'.closed = true) ∨ Closer k.idx t)
    (hz : zeroPc c'.pc → zeroPc c.pc ∨ Closer c.idx s) : Inv3 t := by
  have hcc : ∀ {x}, Closer x s → Closer x t := by
    rintro x ⟨j, d, hj, hd, ho⟩
    by_cases e : j = i
    · subst e
      rw [hi] at hj; cases hj
      refine ⟨j, c', by rw [hlog]; exact get_set_self hi, hx.trans hd, ?_⟩
      rw [hk]
      rcases ho with ho | ho | ho
      · exact .inl ho
      · exact .inr (.inl ho)
      · exact .inr (.inr (hne ho))
    · exact ⟨j, d, by rw [hlog, get_set_ne e]; exact hj, hd, ho⟩
  constructor
  · intro ch k hkc hc
    rcases hcl ch k hkc hc with ⟨k', g1, g2, g3⟩ | g
    · rw [← g2]; exact hcc (h.cl ch k' g1 g3)
    · exact g
  · intro j d hj hd
    rw [hlog] at hj
    rcases get_set_cases hj with ⟨rfl, rfl⟩ | ⟨_, hj⟩
    · rw [hx]
      rcases hz hd with g | g
      · exact hcc (h.zr j c hi g)
      · exact hcc g
    · exact hcc (h.zr j d hj hd)

/-- The step leaves what is closed as it is. -/
theorem same_cl {s t : St V} (h : t.chans = s.chans) (ch : Nat) (k : Chan) (hk : t.chans[ch]? = some k) (hc : k.closed = true) :
    (∃ k', s.chans[ch]? = some k' ∧ k'.idx = k.idx ∧ k'.closed = true) ∨ Closer k.idx t := .inl ⟨k, by rw [← h]; exact hk, rfl, hc⟩

theorem set_cl {s t : St V} {ch0 : Nat} {k0 k1 : Chan} (h0 : s.chans[ch0]? = some k0) (h : t.chans = s.chans.set ch0 k1) (hx : k1.idx = k0.idx)
    (h1 : k1.closed = true → k0.closed = true ∨ Closer k0.idx t) (ch : Nat) (k : Chan) (hk : t.chans[ch]? = some k) (hc : k.closed = true) :
    (∃ k', s.chans[ch]? = some k' ∧ k'.idx = k.idx ∧ k'.closed = true) ∨ Closer k.idx t := by
  rw [h] at hk
  rcases get_set_cases hk with ⟨rfl, rfl⟩ | ⟨_, hk⟩
  · rcases h1 hc with g | g
    · exact .inl ⟨k0, h0, hx.symm, g⟩
    · exact .inr (by rw [hx]; exact g)
  · exact .inl ⟨k, hk, rfl, hc⟩

set_option maxHeartbeats 1000000 in
theorem inv3_step {ix : Id → Nat} {s t : St V} (h1 : Inv ix s) (h : Inv3 s) {i : Nat} {c : Call V} (hi : s.log[i]? = some c) (ht : step ix s i c = some t) : Inv3 t := by
  have hko := h1.ko i c hi
  have href := fun ch => h1.ref i c ch hi
  unfold step at ht
  cases hp : c.pc <;> simp only [hp] at ht
  case wEnter => split at ht <;> cases ht; exact inv3_pc h hi rfl rfl rfl (by simp [hp]) (same_cl rfl) (by simp [zeroPc])
  case wLocked =>
    split at ht <;> cases ht
    · exact inv3_pc h hi rfl rfl rfl (by simp [hp]) (same_cl rfl) (by simp [zeroPc])
    · refine inv3_pc h hi rfl rfl rfl (by simp [hp]) ?_ (by simp [zeroPc])
      intro ch k hk hc
      rcases get_app hk with ⟨hk, _⟩ | ⟨_, rfl⟩
      · exact .inl ⟨k, hk, rfl, hc⟩
      · cases hc
  case wPut => cases ht; exact inv3_pc h hi rfl rfl rfl (by simp [hp]) (same_cl rfl) (by simp [zeroPc])
  case wUnlock => cases ht; exact inv3_pc h hi rfl rfl rfl (by simp [hp]) (same_cl rfl) (by simp [zeroPc])
  case select ch =>
    obtain ⟨k0, g1, g2⟩ := href ch (by rw [hp]; rfl)
    simp only [g1] at ht
    split at ht
    · cases ht
      exact inv3_pc h hi rfl rfl rfl (by simp [hp]) (set_cl (k1 := { k0 with buf := none }) g1 rfl rfl .inl) (by simp [zeroPc])
    · split at ht <;> cases ht
      rename_i hc
      exact inv3_pc h hi rfl rfl rfl (by simp [hp]) (same_cl rfl) fun _ => .inr (by rw [← g2]; exact h.cl ch k0 g1 hc)
  case wClose ch =>
    obtain ⟨k0, g1, g2⟩ := href ch (by rw [hp]; rfl)
    simp only [g1] at ht
    cases ht
    refine inv3_pc h hi rfl rfl rfl (by simp) (set_cl (k1 := { k0 with closed := true }) g1 rfl rfl fun _ => .inr ?_) (by simp [zeroPc])
    exact ⟨i, _, get_set_self hi, g2.symm, .inr (.inr (.inl rfl))⟩
  case wDel r =>
    cases ht
    refine inv3_pc h hi rfl rfl rfl ?_ (same_cl rfl) ?_
    · rw [hp]; rintro (e | e) <;> cases e; exact .inr rfl
    · intro hz; rw [hp]; cases r <;> first | (cases hz; done) | exact .inl trivial
  case has n =>
    split at ht
    · cases ht; exact inv3_pc h hi rfl rfl rfl (by simp [hp]) (same_cl rfl) (by simp [zeroPc])
    · cases n <;> cases ht
      · exact inv3_pc h hi rfl rfl rfl (by simp [hp]) (same_cl rfl) (by simp [zeroPc])
      · exact inv3_pc h hi rfl rfl rfl (by simp [hp]) (same_cl rfl) (by simp [zeroPc])
  case lock => split at ht <;> cases ht; exact inv3_pc h hi rfl rfl rfl (by simp [hp]) (same_cl rfl) (by simp [zeroPc])
  case get =>
    split at ht <;> cases ht
    · exact inv3_pc h hi rfl rfl rfl (by simp [hp]) (same_cl rfl) (by simp [zeroPc])
    · exact inv3_pc h hi rfl rfl rfl (by simp [hp]) (same_cl rfl) (by simp [zeroPc])
  case del =>
    cases ht
    refine inv3_pc h hi rfl rfl rfl (by simp [hp]) (same_cl rfl) ?_
    cases c.kind <;> simp [zeroPc]
  case send ch =>
    obtain ⟨k0, g1, g2⟩ := href ch (by rw [hp]; rfl)
    simp only [g1] at ht
    split at ht
    · cases ht; exact inv3_pc h hi rfl rfl rfl (by simp [hp]) (same_cl rfl) (by simp [zeroPc])
    · split at ht <;> cases ht
      exact inv3_pc h hi rfl rfl rfl (by simp [hp]) (set_cl (k1 := { k0 with buf := some i }) g1 rfl rfl .inl) (by simp [zeroPc])
  case close ch =>
    obtain ⟨k0, g1, g2⟩ := href ch (by rw [hp]; rfl)
    simp only [g1] at ht
    split at ht
    · cases ht; exact inv3_pc h hi rfl rfl rfl (by simp [hp]) (same_cl rfl) (by simp [zeroPc])
    · cases ht
      refine inv3_pc h hi rfl rfl rfl (by simp [hp]) (set_cl (k1 := { k0 with closed := true }) g1 rfl rfl fun _ => .inr ?_) (by simp [zeroPc])
      refine ⟨i, _, get_set_self hi, g2.symm, ?_⟩
      cases hk : c.kind
      case wait => simp [kindOk, hp, hk] at hko
      case put v => exact .inr (.inl ⟨v, rfl⟩)
      case close => exact .inl rfl
  case unlock => cases ht; exact inv3_pc h hi rfl rfl rfl (by simp [hp]) (same_cl rfl) (by simp [zeroPc])
  case wRet => cases ht
  case ret => cases ht

theorem inv3_start {s : St V} (h : Inv3 s) {c : Call V} (hz : ¬ zeroPc c.pc) : Inv3 { s with log := s.log ++ [c] } := by
  have hcc : ∀ {x}, Closer x s → Closer x { s with log := s.log ++ [c] } := fun ⟨j, d, hj, hd⟩ =>
    ⟨j, d, by show (s.log ++ [c])[j]? = _; rw [List.getElem?_append_left (List.getElem?_eq_some_iff.1 hj).1]; exact hj, hd⟩
  constructor
  · exact fun ch k hk hc => hcc (h.cl ch k hk hc)
  · intro j d hj hd
    rcases get_app hj with ⟨hj, _⟩ | ⟨_, rfl⟩
    · exact hcc (h.zr j d hj hd)
    · exact absurd hd hz

theorem inv3_exec {ix : Id → Nat} {loops : Nat} {s t : St V} (h1 : Inv ix s) (h : Inv3 s) {as : List (Act V)} (ht : exec ix loops s as = some t) : Inv3 t := by
  induction as generalizing s with
  | nil => simp only [exec, Option.some.injEq] at ht; subst ht; exact h
  | cons a as ih =>
    simp only [exec] at ht
    cases ha : act ix loops s a with
    | none => simp [ha] at ht
    | some u =>
      simp only [ha, Option.bind_some] at ht
      refine ih (inv_act h1 ha) ?_ ht
      rcases act_cases ha with ⟨_, _, _, _, rfl⟩ | ⟨_, _, _, rfl⟩ | ⟨_, _, rfl⟩ | ⟨i, c, _, hi, hs⟩ | ⟨i, c, ch, _, hi, hp, _, rfl⟩
      · exact inv3_start h id
      · exact inv3_start h id
      · exact inv3_start h id
      · exact inv3_step h1 h hi hs
      · exact inv3_pc h hi rfl rfl rfl (by simp [hp]) (same_cl rfl) (by simp [zeroPc])

theorem inv3_new : Inv3 (new V) := by constructor <;> intros <;> simp_all [new]

end Gofer.Await
