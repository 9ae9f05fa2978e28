import Verif.Proof.FastAwait

/-! # `FastAwait` when the `Wait` calls for an id do not overlap: helper lemmas -/
namespace Gofer.FastAwait
open Gofer.Count
open Gofer.Await (Id Chan Res Kind upd)

variable {V : Type}

def live : Pc → Bool
  | .wPut _ | .select _ | .wClose _ | .wAdd _ | .wDel _ => true
  | _ => false

/-- At most one `Wait` for `x` has not returned. -/
def AL (x : Id) (s : St V) : Prop :=
  ∀ (i j : Nat) (c d : Call V), s.log[i]? = some c → s.log[j]? = some d → live c.pc = true → live d.pc = true → c.idx = x → d.idx = x → i = j

/-- What a step does to the log. -/
theorem step_log {has : List Id → Id → Bool} {s t : St V} {i : Nat} {c : Call V} (ht : step has s i c = some t) :
    ∃ pc, t.log = s.log.set i { c with pc := pc } ∧ (live pc = true → live c.pc = true) ∧ (∀ ch, pc = .select ch → c.pc = .wPut ch) := by
  unfold step at ht
  cases hp : c.pc <;> simp only [hp] at ht
  case del ch =>
    cases ht
    refine ⟨_, rfl, ?_, ?_⟩ <;> cases c.kind <;> simp [live]
  all_goals first
    | (cases ht; done)
    | (cases ht; exact ⟨_, rfl, by simp [live], by simp⟩)
    | (split at ht <;> first | (cases ht; done) | (cases ht; exact ⟨_, rfl, by simp [live], by simp⟩) | (split at ht <;> first | (cases ht; done) | (cases ht; exact ⟨_, rfl, by simp [live], by simp⟩) |
        (split at ht <;> first | (cases ht; done) | (cases ht; exact ⟨_, rfl, by simp [live], by simp⟩))))

/-- A step of a call for another id leaves the entry of `x` and its channels alone. -/
theorem step_frame {has : List Id → Id → Bool} {x : Id} {s t : St V} (h : Inv s) {i : Nat} {c : Call V} (hi : s.log[i]? = some c) (ht : step has s i c = some t)
    (hx : c.idx ≠ x) : t.m x = s.m x ∧ ∀ (ch : Nat) (k : Chan), s.chans[ch]? = some k → k.idx = x → t.chans[ch]? = some k := by
  have hu : ∀ b, upd s.m c.idx b x = s.m x := fun b => by simp [upd, Ne.symm hx]
  have hset : ∀ {ch0 : Nat} {k0 k1 : Chan}, s.chans[ch0]? = some k0 → k0.idx = c.idx → ∀ (ch : Nat) (k : Chan), s.chans[ch]? = some k → k.idx = x →
      (s.chans.set ch0 k1)[ch]? = some k := by
    intro ch0 k0 k1 h0 h1 ch k hk hkx
    rw [get_set_ne]
    · exact hk
    · rintro rfl; rw [hk] at h0; cases h0; exact hx (h1.symm.trans hkx)
  unfold step at ht
  cases hp : c.pc <;> simp only [hp] at ht
  case wPut => cases ht; exact ⟨hu _, fun _ _ hk _ => hk⟩
  case select ch =>
    obtain ⟨k0, g1, g2⟩ := h.ref i c ch hi (by rw [hp]; rfl)
    simp only [g1] at ht
    split at ht
    · cases ht; exact ⟨rfl, hset g1 g2⟩
    · split at ht <;> cases ht
      exact ⟨rfl, fun _ _ hk _ => hk⟩
  case wClose ch =>
    obtain ⟨k0, g1, g2⟩ := h.ref i c ch hi (by rw [hp]; rfl)
    simp only [g1] at ht
    cases ht; exact ⟨rfl, hset g1 g2⟩
  case wAdd => cases ht; exact ⟨rfl, fun _ _ hk _ => hk⟩
  case wDel => cases ht; exact ⟨hu _, fun _ _ hk _ => hk⟩
  case wRet => cases ht
  case get => split at ht <;> cases ht <;> exact ⟨rfl, fun _ _ hk _ => hk⟩
  case isDel n =>
    split at ht
    · cases ht; exact ⟨rfl, fun _ _ hk _ => hk⟩
    · cases n <;> cases ht <;> exact ⟨rfl, fun _ _ hk _ => hk⟩
  case del => cases ht; exact ⟨hu _, fun _ _ hk _ => hk⟩
  case send ch =>
    obtain ⟨k0, g1, g2⟩ := h.ref i c ch hi (by rw [hp]; rfl)
    simp only [g1] at ht
    split at ht
    · cases ht; exact ⟨rfl, fun _ _ hk _ => hk⟩
    · split at ht <;> cases ht
      exact ⟨rfl, hset g1 g2⟩
  case close ch pn =>
    obtain ⟨k0, g1, g2⟩ := h.ref i c ch hi (by rw [hp]; rfl)
    simp only [g1] at ht
    split at ht <;> cases ht
    · exact ⟨rfl, fun _ _ hk _ => hk⟩
    · exact ⟨rfl, hset g1 g2⟩
  case ret => cases ht

theorem live_ret {c : Call V} (hk : kindOk c = true) (hw : isWait c = true) : live c.pc = false → ∃ r, c.pc = .wRet r := by
  intro hl
  cases hp : c.pc <;> cases hq : c.kind <;> simp_all [kindOk, isWait, live]

theorem al_act {has : List Id → Id → Bool} {loops : Nat} {x : Id} {s t : St V} (h : Inv s) (ha : AL x s) {a : Act V}
    (hs : (∃ timed ctx, a = .wait timed ctx x) → ∀ (i : Nat) (c : Call V), s.log[i]? = some c → isWait c = true → c.idx = x → ∃ r, c.pc = .wRet r)
    (ht : act has loops s a = some t) : AL x t := by
  have start : ∀ c : Call V, live c.pc = false → AL x ({ s with log := s.log ++ [c] } : St V) := by
    intro c hc i j d e hi hj hd he hdx hex
    replace hi := get_app hi
    replace hj := get_app hj
    rcases hi with ⟨hi, _⟩ | ⟨_, rfl⟩
    · rcases hj with ⟨hj, _⟩ | ⟨_, rfl⟩
      · exact ha i j d e hi hj hd he hdx hex
      · rw [hc] at he; cases he
    · rw [hc] at hd; cases hd
  have move : ∀ (i : Nat) (c : Call V) (pc : Pc) (u : St V), s.log[i]? = some c → u.log = s.log.set i { c with pc := pc } → (live pc = true → live c.pc = true) → AL x u := by
    intro i c pc u hi hu hl a b e f ha1 hb he hf hxe hxf
    have low : ∀ {a : Nat} {e : Call V}, u.log[a]? = some e → live e.pc = true → e.idx = x → ∃ e', s.log[a]? = some e' ∧ live e'.pc = true ∧ e'.idx = x := by
      intro a e ha he hxe
      rw [hu] at ha
      replace ha := get_set_cases ha
      rcases ha with ⟨rfl, rfl⟩ | ⟨_, ha⟩
      · exact ⟨c, hi, hl he, hxe⟩
      · exact ⟨e, ha, he, hxe⟩
    obtain ⟨e', a1, a2, a3⟩ := low ha1 he hxe
    obtain ⟨f', b1, b2, b3⟩ := low hb hf hxf
    exact ha a b e' f' a1 b1 a2 b2 a3 b3
  rcases act_cases ht with ⟨b1, b2, y, rfl, rfl⟩ | ⟨_, _, _, rfl⟩ | ⟨_, _, rfl⟩ | ⟨i, c, _, hi, hst⟩ | ⟨i, c, ch, _, hi, hp, _, rfl⟩
  · intro i j d e hi hj hd he hdx hex
    have old : ∀ {i : Nat} {d : Call V}, y = x → s.log[i]? = some d → live d.pc = true → d.idx = x → False := by
      intro i d hy hi hd hdx
      subst hy
      have hw : isWait d = true := by
        have := h.ko i d hi
        cases hq : d.kind <;> cases hp : d.pc <;> simp_all [kindOk, isWait, live]
      obtain ⟨r, hr⟩ := hs ⟨b1, b2, rfl⟩ i d hi hw hdx
      rw [hr] at hd; cases hd
    replace hi := get_app hi
    replace hj := get_app hj
    rcases hi with ⟨hi, _⟩ | ⟨ei, rfl⟩ <;> rcases hj with ⟨hj, _⟩ | ⟨ej, rfl⟩
    · exact ha i j d e hi hj hd he hdx hex
    · exact (old hex hi hd hdx).elim
    · exact (old hdx hj he hex).elim
    · rw [ei, ej]
  · exact start _ rfl
  · exact start _ rfl
  · obtain ⟨pc, hl, hlive, _⟩ := step_log hst
    exact move i c pc t hi hl hlive
  · exact move i c (.wClose ch) _ hi rfl (fun _ => by rw [hp]; rfl)

/-- Before any `CloseAndPut(x, _)` or `Close(x)`. -/
structure P1 (x : Id) (s : St V) : Prop where
  no : ∀ (j : Nat) (d : Call V), s.log[j]? = some d → d.idx = x → isWait d = true
  sel : ∀ (w : Nat) (c : Call V) (ch : Nat), s.log[w]? = some c → c.idx = x → c.pc = .select ch →
    s.m x = some ch ∧ ∃ k, s.chans[ch]? = some k ∧ k.buf = none ∧ k.closed = false

theorem p1_act {has : List Id → Id → Bool} {loops : Nat} {x : Id} {s t : St V} (h : Inv s) (ha : AL x s) (hp1 : P1 x s) {a : Act V}
    (hno : (∀ v, a ≠ .put x v) ∧ a ≠ .close x) (ht : act has loops s a = some t) : P1 x t := by
  have ap : ∀ {ch : Nat} {k c : Chan}, s.chans[ch]? = some k → (s.chans ++ [c])[ch]? = some k := fun hk => by
    rw [List.getElem?_append_left (List.getElem?_eq_some_iff.1 hk).1]; exact hk
  rcases act_cases ht with ⟨b1, b2, y, rfl, rfl⟩ | ⟨y, v, rfl, rfl⟩ | ⟨y, rfl, rfl⟩ | ⟨i, c, _, hi, hst⟩ | ⟨i, c, ch, _, hi, hp, ⟨b, hb⟩, rfl⟩
  · constructor
    · intro j d hj hd
      rcases get_app hj with ⟨hj, _⟩ | ⟨_, rfl⟩
      · exact hp1.no j d hj hd
      · rfl
    · intro w d ch hj hd hs
      rcases get_app hj with ⟨hj, _⟩ | ⟨_, rfl⟩
      · obtain ⟨g1, k, g2, g3⟩ := hp1.sel w d ch hj hd hs
        exact ⟨g1, k, ap g2, g3⟩
      · cases hs
  · have hy : y ≠ x := by rintro rfl; exact hno.1 v rfl
    constructor
    · intro j d hj hd
      rcases get_app hj with ⟨hj, _⟩ | ⟨_, rfl⟩
      · exact hp1.no j d hj hd
      · exact absurd hd hy
    · intro w d ch hj hd hs
      rcases get_app hj with ⟨hj, _⟩ | ⟨_, rfl⟩
      · exact hp1.sel w d ch hj hd hs
      · cases hs
  · have hy : y ≠ x := by rintro rfl; exact hno.2 rfl
    constructor
    · intro j d hj hd
      rcases get_app hj with ⟨hj, _⟩ | ⟨_, rfl⟩
      · exact hp1.no j d hj hd
      · exact absurd hd hy
    · intro w d ch hj hd hs
      rcases get_app hj with ⟨hj, _⟩ | ⟨_, rfl⟩
      · exact hp1.sel w d ch hj hd hs
      · cases hs
  · obtain ⟨pc, hl, _, hsel⟩ := step_log hst
    have no' : ∀ (j : Nat) (d : Call V), t.log[j]? = some d → d.idx = x → isWait d = true := by
      intro j d hj hd
      rw [hl] at hj
      replace hj := get_set_cases hj
      rcases hj with ⟨rfl, rfl⟩ | ⟨_, hj⟩
      · exact hp1.no j c hi hd
      · exact hp1.no j d hj hd
    refine ⟨no', fun w d ch hj hd hs => ?_⟩
    rw [hl] at hj
    replace hj := get_set_cases hj
    rcases hj with ⟨rfl, rfl⟩ | ⟨hne, hj⟩
    · have hcp := hsel ch hs
      obtain ⟨_, _, k, g1, g2⟩ := h.fr w c ch hi hcp
      simp only [step, hcp, Option.some.injEq] at hst
      subst hst
      exact ⟨by simp only [St.goto, upd]; rw [if_pos hd.symm], k, g1, g2⟩
    · obtain ⟨g1, k, g2, g3⟩ := hp1.sel w d ch hj hd hs
      by_cases hx : c.idx = x
      · exfalso
        have hw := hp1.no i c hi hx
        have hlc : live c.pc = true := by
          cases hlc : live c.pc with
          | true => rfl
          | false =>
            obtain ⟨r, hr⟩ := live_ret (h.ko i c hi) hw hlc
            simp [step, hr] at hst
        exact hne (ha w i d c hj hi (by rw [hs]; rfl) hlc hd hx)
      · obtain ⟨f1, f2⟩ := step_frame h hi hst hx
        obtain ⟨k', e1, e2⟩ := h.mv x ch g1
        rw [g2] at e1; cases e1
        exact ⟨by rw [f1]; exact g1, k, f2 ch k g2 e2, g3⟩
  · constructor
    · intro j d hj hd
      replace hj := get_set_cases hj
      rcases hj with ⟨rfl, rfl⟩ | ⟨_, hj⟩
      · exact hp1.no j c hi hd
      · exact hp1.no j d hj hd
    · intro w d ch' hj hd hs
      replace hj := get_set_cases hj
      rcases hj with ⟨rfl, rfl⟩ | ⟨_, hj⟩
      · cases hs
      · exact hp1.sel w d ch' hj hd hs

/-- Call `w` waits on `ch`, call `p` is on its way to it. -/
def Chain (x : Id) (p ch : Nat) (s : St V) (e : Pc) : Prop :=
  (s.m x = some ch ∧ ((∃ n, e = .get n) ∨ e = .del ch) ∧ ∃ k, s.chans[ch]? = some k ∧ k.idx = x ∧ k.buf = none ∧ k.closed = false) ∨
  (e = .send ch ∧ ∃ k, s.chans[ch]? = some k ∧ k.idx = x ∧ k.buf = none ∧ k.closed = false) ∨
  (e = .close ch false ∧ ∃ k, s.chans[ch]? = some k ∧ k.idx = x ∧ k.buf = some p ∧ k.closed = false) ∨
  ((∃ b, e = .ret b) ∧ ∃ k, s.chans[ch]? = some k ∧ k.idx = x ∧ k.buf = some p ∧ k.closed = true)

theorem Chain.frame {x : Id} {p ch : Nat} {s t : St V} {e : Pc} (h : Chain x p ch s e) (hm : t.m x = s.m x)
    (hc : ∀ (ch : Nat) (k : Chan), s.chans[ch]? = some k → k.idx = x → t.chans[ch]? = some k) : Chain x p ch t e := by
  rcases h with ⟨g1, g2, k, g3, g4, g5⟩ | ⟨g1, k, g2, g3, g4⟩ | ⟨g1, k, g2, g3, g4⟩ | ⟨g1, k, g2, g3, g4⟩
  · exact .inl ⟨hm.trans g1, g2, k, hc ch k g3 g4, g4, g5⟩
  · exact .inr (.inl ⟨g1, k, hc ch k g2 g3, g3, g4⟩)
  · exact .inr (.inr (.inl ⟨g1, k, hc ch k g2 g3, g3, g4⟩))
  · exact .inr (.inr (.inr ⟨g1, k, hc ch k g2 g3, g3, g4⟩))

/-- Where `w` is when it does not wait any more: it has timed out or been cancelled, or has the value of `p`. -/
def after (p : Nat) : Pc → Prop
  | .wClose _ => True
  | .wAdd r | .wDel r | .wRet r => r = .error ∨ r = .got p
  | _ => False

structure J (x : Id) (w p ch : Nat) (s : St V) : Prop where
  no : ∀ (j : Nat) (f : Call V), s.log[j]? = some f → f.idx = x → isWait f = false → j = p
  st : ∃ d e, s.log[w]? = some d ∧ d.idx = x ∧ isWait d = true ∧ s.log[p]? = some e ∧ e.idx = x ∧ isPut e = true ∧
    ((d.pc = .select ch ∧ Chain x p ch s e.pc) ∨ after p d.pc)

theorem j_act {has : List Id → Id → Bool} {loops : Nat} {x : Id} {w p ch : Nat} {s t : St V} (h : Inv s) (ha : AL x s) (hJ : J x w p ch s) {a : Act V}
    (hno : (∀ v, a ≠ .put x v) ∧ a ≠ .close x) (ht : act has loops s a = some t) : J x w p ch t := by
  obtain ⟨no, d, e, hw, hdx, hdw, hp, hex, hep, hst⟩ := hJ
  have hwp : w ≠ p := by
    rintro rfl
    rw [hw] at hp; cases hp
    cases hq : d.kind <;> simp_all [isWait, isPut]
  have apl : ∀ {j : Nat} {f c : Call V}, s.log[j]? = some f → (s.log ++ [c])[j]? = some f := fun hk => by
    rw [List.getElem?_append_left (List.getElem?_eq_some_iff.1 hk).1]; exact hk
  have ap : ∀ {ch : Nat} {k c : Chan}, s.chans[ch]? = some k → (s.chans ++ [c])[ch]? = some k := fun hk => by
    rw [List.getElem?_append_left (List.getElem?_eq_some_iff.1 hk).1]; exact hk
  rcases act_cases ht with ⟨b1, b2, y, rfl, rfl⟩ | ⟨y, v, rfl, rfl⟩ | ⟨y, rfl, rfl⟩ | ⟨i, c, _, hi, hs⟩ | ⟨i, c, ch', _, hi, hpc, ⟨b, hb⟩, rfl⟩
  · refine ⟨fun j f hj hf hwf => ?_, d, e, apl hw, hdx, hdw, apl hp, hex, hep, hst.imp (fun g => ⟨g.1, g.2.frame rfl fun _ _ hk _ => ap hk⟩) id⟩
    rcases get_app hj with ⟨hj, _⟩ | ⟨_, rfl⟩
    · exact no j f hj hf hwf
    · cases hwf
  · have hy : y ≠ x := by rintro rfl; exact hno.1 v rfl
    refine ⟨fun j f hj hf hwf => ?_, d, e, apl hw, hdx, hdw, apl hp, hex, hep, hst.imp (fun g => ⟨g.1, g.2.frame rfl fun _ _ hk _ => hk⟩) id⟩
    rcases get_app hj with ⟨hj, _⟩ | ⟨_, rfl⟩
    · exact no j f hj hf hwf
    · exact absurd hf hy
  · have hy : y ≠ x := by rintro rfl; exact hno.2 rfl
    refine ⟨fun j f hj hf hwf => ?_, d, e, apl hw, hdx, hdw, apl hp, hex, hep, hst.imp (fun g => ⟨g.1, g.2.frame rfl fun _ _ hk _ => hk⟩) id⟩
    rcases get_app hj with ⟨hj, _⟩ | ⟨_, rfl⟩
    · exact no j f hj hf hwf
    · exact absurd hf hy
  · obtain ⟨pc, hl, _, _⟩ := step_log hs
    have no' : ∀ (j : Nat) (f : Call V), t.log[j]? = some f → f.idx = x → isWait f = false → j = p := by
      intro j f hj hf hwf
      rw [hl] at hj
      replace hj := get_set_cases hj
      rcases hj with ⟨rfl, rfl⟩ | ⟨_, hj⟩
      · exact no j c hi hf hwf
      · exact no j f hj hf hwf
    refine ⟨no', ?_⟩
    by_cases hiw : i = w
    · -- a step of the waiting call
      subst hiw
      obtain rfl : d = c := by rw [hi] at hw; cases hw; rfl
      have fin : ∀ (u : St V) (_ : u = t) (pc' : Pc), u.log = s.log.set i { d with pc := pc' } → after p pc' →
          ∃ d e, t.log[i]? = some d ∧ d.idx = x ∧ isWait d = true ∧ t.log[p]? = some e ∧ e.idx = x ∧ isPut e = true ∧
            ((d.pc = .select ch ∧ Chain x p ch t e.pc) ∨ after p d.pc) := by
        rintro u rfl pc' k1 k2
        exact ⟨{ d with pc := pc' }, e, by rw [k1]; exact get_set_self hi, hdx, hdw, by rw [k1, get_set_ne (Ne.symm hwp)]; exact hp, hex, hep, .inr k2⟩
      unfold step at hs
      rcases hst with ⟨hsel, hch⟩ | haf
      · simp only [hsel] at hs
        have hbuf : ∃ k, s.chans[ch]? = some k ∧ ((k.buf = none ∧ k.closed = false) ∨ k.buf = some p) := by
          rcases hch with ⟨_, _, k, g3, _, g5⟩ | ⟨_, k, g2, _, g4⟩ | ⟨_, k, g2, _, g4⟩ | ⟨_, k, g2, _, g4⟩
          · exact ⟨k, g3, .inl g5⟩
          · exact ⟨k, g2, .inl g4⟩
          · exact ⟨k, g2, .inr g4.1⟩
          · exact ⟨k, g2, .inr g4.1⟩
        obtain ⟨k, g1, g2⟩ := hbuf
        simp only [g1] at hs
        rcases g2 with ⟨g2, g3⟩ | g2
        · simp [g2, g3] at hs
        · simp only [g2, Option.some.injEq] at hs
          exact fin _ hs (.wAdd (.got p)) rfl (Or.inr rfl)
      · cases hpc : d.pc <;> rw [hpc] at haf <;> simp only [hpc] at hs <;> try (exact haf.elim)
        · split at hs
          · cases hs
          · simp only [Option.some.injEq] at hs
            exact fin _ hs (.wAdd .error) rfl (Or.inl rfl)
        · rename_i r
          simp only [Option.some.injEq] at hs
          exact fin _ hs (.wDel r) rfl haf
        · rename_i r
          simp only [Option.some.injEq] at hs
          exact fin _ hs (.wRet r) rfl haf
        · cases hs
    · have hw' : t.log[w]? = some d := by rw [hl, get_set_ne (Ne.symm hiw)]; exact hw
      by_cases hip : i = p
      · -- a step of the `CloseAndPut`
        subst hip
        obtain rfl : e = c := by rw [hi] at hp; cases hp; rfl
        have hp' : t.log[i]? = some { e with pc := pc } := by rw [hl]; exact get_set_self hi
        refine ⟨d, { e with pc := pc }, hw', hdx, hdw, hp', hex, hep, ?_⟩
        rcases hst with ⟨hsel, hch⟩ | haf
        · refine .inl ⟨hsel, ?_⟩
          have fin : ∀ (u : St V) (_ : u = t) (pc' : Pc), u.log = s.log.set i { e with pc := pc' } → Chain x i ch u pc' → Chain x i ch t pc := by
            rintro u rfl pc' k1 k2
            rw [hl] at k1
            have := congrArg (fun l => l[i]?) k1
            simp only [get_set_self hi, Option.some.injEq, Call.mk.injEq, true_and] at this
            rw [this]; exact k2
          unfold step at hs
          rcases hch with ⟨g1, g2 | g2, k, g3, g4, g5⟩ | ⟨g1, k, g2, g3, g4⟩ | ⟨g1, k, g2, g3, g4⟩ | ⟨⟨b, g1⟩, _⟩
          · obtain ⟨n, g2⟩ := g2
            simp only [g2, hex, g1, Option.some.injEq] at hs
            exact fin _ hs (.del ch) rfl (.inl ⟨g1, .inr rfl, k, g3, g4, g5⟩)
          · simp only [g2, Option.some.injEq] at hs
            have hk : ∃ v, e.kind = .put v := by cases hq : e.kind <;> simp_all [isPut]
            obtain ⟨v, hk⟩ := hk
            simp only [hk] at hs
            exact fin _ hs (.send ch) rfl (.inr (.inl ⟨rfl, k, g3, g4, g5⟩))
          · simp only [g1, g2, g4.1, g4.2, Bool.false_eq_true, if_false, Option.some.injEq] at hs
            exact fin _ hs (.close ch false) rfl (.inr (.inr (.inl ⟨rfl, _, get_set_self g2, g3, rfl, rfl⟩)))
          · simp only [g1, g2, g4.2, Bool.false_eq_true, if_false, Option.some.injEq] at hs
            exact fin _ hs (.ret false) rfl (.inr (.inr (.inr ⟨⟨_, rfl⟩, { k with closed := true }, get_set_self g2, g3, g4.1, rfl⟩)))
          · simp [g1] at hs
        · exact .inr haf
      · have hp' : t.log[p]? = some e := by rw [hl, get_set_ne (Ne.symm hip)]; exact hp
        refine ⟨d, e, hw', hdx, hdw, hp', hex, hep, ?_⟩
        rcases hst with ⟨hsel, hch⟩ | haf
        · refine .inl ⟨hsel, ?_⟩
          by_cases hx : c.idx = x
          · exfalso
            have hcw : isWait c = true := by
              cases hq : isWait c with
              | true => rfl
              | false => exact absurd (no i c hi hx hq) hip
            have hlc : live c.pc = true := by
              cases hlc : live c.pc with
              | true => rfl
              | false =>
                obtain ⟨r, hr⟩ := live_ret (h.ko i c hi) hcw hlc
                simp [step, hr] at hs
            exact hiw (ha i w c d hi hw hlc (by rw [hsel]; rfl) hx hdx)
          · obtain ⟨f1, f2⟩ := step_frame h hi hs hx
            exact hch.frame f1 f2
        · exact .inr haf
  · have hip : p ≠ i := by
      rintro rfl; rw [hi] at hp; cases hp; simp [isPut, hb] at hep
    refine ⟨fun j f hj hf hwf => ?_, ?_⟩
    · replace hj := get_set_cases hj
      rcases hj with ⟨rfl, rfl⟩ | ⟨_, hj⟩
      · exact no j c hi hf hwf
      · exact no j f hj hf hwf
    · have hp' : (s.goto i c (.wClose ch')).log[p]? = some e := by show (s.log.set i _)[p]? = _; rw [get_set_ne hip]; exact hp
      by_cases hiw : i = w
      · subst hiw
        obtain rfl : d = c := by rw [hi] at hw; cases hw; rfl
        exact ⟨_, e, get_set_self hi, hdx, hdw, hp', hex, hep, .inr trivial⟩
      · refine ⟨d, e, by show (s.log.set i _)[w]? = _; rw [get_set_ne (Ne.symm hiw)]; exact hw, hdx, hdw, hp', hex, hep, ?_⟩
        exact hst.imp (fun g => ⟨g.1, g.2.frame rfl fun _ _ hk _ => hk⟩) id

theorem Serial.append {has : List Id → Id → Bool} {loops : Nat} {x : Id} {s t : St V} {as bs : List (Act V)} (h : Serial has loops x s (as ++ bs))
    (ht : exec has loops s as = some t) : Serial has loops x s as ∧ Serial has loops x t bs := by
  induction as generalizing s with
  | nil => simp only [exec, Option.some.injEq] at ht; subst ht; exact ⟨trivial, h⟩
  | cons a as ih =>
    simp only [exec] at ht
    cases ha : act has loops s a with
    | none => simp [ha] at ht
    | some u =>
      simp only [ha, Option.bind_some] at ht
      obtain ⟨g1, g2⟩ := ih (h.2 u ha) ht
      exact ⟨⟨h.1, fun v hv => by rw [ha] at hv; cases hv; exact g1⟩, g2⟩

theorem p1_exec {has : List Id → Id → Bool} {loops : Nat} {x : Id} {s t : St V} (h : Inv s) (ha : AL x s) (hp1 : P1 x s) {as : List (Act V)}
    (hs : Serial has loops x s as) (hno : ∀ a ∈ as, (∀ v, a ≠ .put x v) ∧ a ≠ .close x) (ht : exec has loops s as = some t) : AL x t ∧ P1 x t := by
  induction as generalizing s with
  | nil => simp only [exec, Option.some.injEq] at ht; subst ht; exact ⟨ha, hp1⟩
  | cons a as ih =>
    simp only [exec] at ht
    cases hact : act has loops s a with
    | none => simp [hact] at ht
    | some u =>
      simp only [hact, Option.bind_some] at ht
      exact ih (inv_act h hact) (al_act h ha hs.1 hact) (p1_act h ha hp1 (hno a (by simp)) hact) (hs.2 u hact) (fun b hb => hno b (by simp [hb])) ht

theorem j_exec {has : List Id → Id → Bool} {loops : Nat} {x : Id} {w p ch : Nat} {s t : St V} (h : Inv s) (ha : AL x s) (hJ : J x w p ch s) {as : List (Act V)}
    (hs : Serial has loops x s as) (hno : ∀ a ∈ as, (∀ v, a ≠ .put x v) ∧ a ≠ .close x) (ht : exec has loops s as = some t) : J x w p ch t := by
  induction as generalizing s with
  | nil => simp only [exec, Option.some.injEq] at ht; subst ht; exact hJ
  | cons a as ih =>
    simp only [exec] at ht
    cases hact : act has loops s a with
    | none => simp [hact] at ht
    | some u =>
      simp only [hact, Option.bind_some] at ht
      exact ih (inv_act h hact) (al_act h ha hs.1 hact) (j_act h ha hJ (hno a (by simp)) hact) (hs.2 u hact) (fun b hb => hno b (by simp [hb])) ht

theorem exec_append (has : List Id → Id → Bool) (loops : Nat) (s : St V) (as bs : List (Act V)) :
    exec has loops s (as ++ bs) = (exec has loops s as).bind fun t => exec has loops t bs := by
  induction as generalizing s with
  | nil => rfl
  | cons a as ih =>
    simp only [List.cons_append, exec]
    cases act has loops s a with
    | none => rfl
    | some u => exact ih u

/-- A test for `Serial`. -/
def serialB (has : List Id → Id → Bool) (loops : Nat) (x : Id) : St V → List (Act V) → Bool
  | _, [] => true
  | s, a :: as =>
    (match a with
      | .wait _ _ y => y != x || s.log.all fun c => !isWait c || c.idx != x || (match c.pc with | .wRet _ => true | _ => false)
      | _ => true) &&
    match act has loops s a with
    | none => true
    | some t => serialB has loops x t as

theorem serial_of {has : List Id → Id → Bool} {loops : Nat} {x : Id} {s : St V} {as : List (Act V)} (h : serialB has loops x s as = true) : Serial has loops x s as := by
  induction as generalizing s with
  | nil => trivial
  | cons a as ih =>
    simp only [serialB, Bool.and_eq_true] at h
    refine ⟨?_, fun t ht => ih (by rw [ht] at h; exact h.2)⟩
    rintro ⟨b1, b2, rfl⟩ i c hi hw hx
    have := h.1
    simp only [bne_self_eq_false, Bool.false_or, List.all_eq_true] at this
    have hc := this c (List.mem_of_getElem? hi)
    simp only [hw, hx, bne_self_eq_false, Bool.not_true, Bool.false_or] at hc
    split at hc
    · rename_i r hr; exact ⟨r, hr⟩
    · cases hc

/-- What a `Wait` in its receive comes to. -/
def afterSel (ch : Nat) (pc : Pc) : Prop := pc = .select ch ∨ pc = .wClose ch ∨ ∃ r, pc = .wAdd r ∨ pc = .wDel r ∨ pc = .wRet r

theorem chan_act {has : List Id → Id → Bool} {loops : Nat} {s t : St V} {w ch : Nat} {c : Call V} (hw : s.log[w]? = some c) (hc : afterSel ch c.pc) {a : Act V}
    (ht : act has loops s a = some t) : ∃ d, t.log[w]? = some d ∧ afterSel ch d.pc := by
  have ap : ∀ e : Call V, (s.log ++ [e])[w]? = some c := fun e => by
    rw [List.getElem?_append_left (List.getElem?_eq_some_iff.1 hw).1]; exact hw
  rcases act_cases ht with ⟨_, _, _, _, rfl⟩ | ⟨_, _, _, rfl⟩ | ⟨_, _, rfl⟩ | ⟨j, e, _, he, hs⟩ | ⟨j, e, ch', _, he, hp, _, rfl⟩
  · exact ⟨c, ap _, hc⟩
  · exact ⟨c, ap _, hc⟩
  · exact ⟨c, ap _, hc⟩
  · by_cases hj : w = j
    · subst hj; rw [hw] at he; cases he
      unfold step at hs
      rcases hc with hc | hc | ⟨r, hc | hc | hc⟩ <;> simp only [hc] at hs
      · split at hs
        · cases hs
        · split at hs
          · cases hs; exact ⟨_, get_set_self hw, .inr (.inr ⟨_, .inl rfl⟩)⟩
          · split at hs <;> cases hs
            exact ⟨_, get_set_self hw, .inr (.inr ⟨_, .inl rfl⟩)⟩
      · split at hs <;> cases hs
        exact ⟨_, get_set_self hw, .inr (.inr ⟨_, .inl rfl⟩)⟩
      · cases hs; exact ⟨_, get_set_self hw, .inr (.inr ⟨_, .inr (.inl rfl)⟩)⟩
      · cases hs; exact ⟨_, get_set_self hw, .inr (.inr ⟨_, .inr (.inr rfl)⟩)⟩
      · cases hs
    · obtain ⟨pc, hl, _⟩ := step_log hs
      exact ⟨c, by rw [hl, get_set_ne hj]; exact hw, hc⟩
  · by_cases hj : w = j
    · subst hj; rw [hw] at he; cases he
      refine ⟨_, get_set_self hw, .inr (.inl ?_)⟩
      rcases hc with hc | hc | ⟨r, hc | hc | hc⟩ <;> rw [hp] at hc <;> cases hc
      rfl
    · exact ⟨c, by show (s.log.set j _)[w]? = _; rw [get_set_ne hj]; exact hw, hc⟩

theorem chan_exec {has : List Id → Id → Bool} {loops : Nat} {s t : St V} {w ch : Nat} {c : Call V} (hw : s.log[w]? = some c) (hc : afterSel ch c.pc) {as : List (Act V)}
    (ht : exec has loops s as = some t) : ∃ d, t.log[w]? = some d ∧ afterSel ch d.pc := by
  induction as generalizing s c with
  | nil => simp only [exec, Option.some.injEq] at ht; subst ht; exact ⟨c, hw, hc⟩
  | cons a as ih =>
    simp only [exec] at ht
    cases ha : act has loops s a with
    | none => simp [ha] at ht
    | some u =>
      simp only [ha, Option.bind_some] at ht
      obtain ⟨d, h1, h2⟩ := chan_act hw hc ha
      exact ih h1 h2 ht

def idlePc : Pc → Bool
  | .get _ | .isDel _ | .ret _ => true
  | _ => false

/-- Nobody has waited for `x`; call `p` has made `k` steps. -/
structure Q (loops : Nat) (x : Id) (p k : Nat) (s : St V) : Prop where
  no : ∀ (j : Nat) (d : Call V), s.log[j]? = some d → d.idx = x → idlePc d.pc = true
  mx : s.m x = none
  bf : x ∉ s.bf
  pc : ∃ d, s.log[p]? = some d ∧ d.idx = x ∧ match d.pc with
    | .get n => n ≤ loops ∧ k + 2 * n = 2 * loops
    | .isDel n => n ≤ loops ∧ k + 2 * n = 2 * loops + 1
    | .ret _ => k = 2 * loops + 2
    | _ => False

theorem step_bf {has : List Id → Id → Bool} {s t : St V} {i : Nat} {c : Call V} (ht : step has s i c = some t) (x : Id) (hx : c.idx ≠ x) (hb : x ∉ s.bf) : x ∉ t.bf := by
  unfold step at ht
  cases hp : c.pc <;> simp only [hp] at ht
  case wAdd => cases ht; simp [St.goto, hb, Ne.symm hx]
  all_goals first
    | (cases ht; done)
    | (cases ht; exact hb)
    | (split at ht <;> first | (cases ht; done) | (cases ht; exact hb) | (split at ht <;> first | (cases ht; done) | (cases ht; exact hb) |
        (split at ht <;> first | (cases ht; done) | (cases ht; exact hb))))

theorem q_act {has : List Id → Id → Bool} {loops : Nat} {x : Id} {p k : Nat} {s t : St V} (h : Inv s) (hq : Q loops x p k s)
    (hhas : ∀ l, x ∉ l → has l x = false) {a : Act V} (hno : ∀ b1 b2, a ≠ .wait b1 b2 x) (ht : act has loops s a = some t) :
    Q loops x p (k + (isStep p a).toNat) t := by
  obtain ⟨no, mx, bf, d, hp, hdx, hd⟩ := hq
  have apl : ∀ {j : Nat} {f c : Call V}, s.log[j]? = some f → (s.log ++ [c])[j]? = some f := fun hk => by
    rw [List.getElem?_append_left (List.getElem?_eq_some_iff.1 hk).1]; exact hk
  rcases act_cases ht with ⟨b1, b2, y, rfl, rfl⟩ | ⟨y, v, rfl, rfl⟩ | ⟨y, rfl, rfl⟩ | ⟨i, c, rfl, hi, hs⟩ | ⟨i, c, ch', ha, hi, hpc, ⟨b, hb⟩, rfl⟩
  · refine ⟨fun j f hj hf => ?_, mx, bf, d, apl hp, hdx, hd⟩
    rcases get_app hj with ⟨hj, _⟩ | ⟨_, rfl⟩
    · exact no j f hj hf
    · exact absurd (by rw [← show y = x from hf]) (hno b1 b2)
  · refine ⟨fun j f hj hf => ?_, mx, bf, d, apl hp, hdx, hd⟩
    rcases get_app hj with ⟨hj, _⟩ | ⟨_, rfl⟩
    · exact no j f hj hf
    · rfl
  · refine ⟨fun j f hj hf => ?_, mx, bf, d, apl hp, hdx, hd⟩
    rcases get_app hj with ⟨hj, _⟩ | ⟨_, rfl⟩
    · exact no j f hj hf
    · rfl
  · by_cases hx : c.idx = x
    · -- a call for `x`
      have hidle := no i c hi hx
      have key : ∀ pc, idlePc pc = true → s.goto i c pc = t →
          (i = p → match pc with
            | .get n => n ≤ loops ∧ k + 1 + 2 * n = 2 * loops
            | .isDel n => n ≤ loops ∧ k + 1 + 2 * n = 2 * loops + 1
            | .ret _ => k + 1 = 2 * loops + 2
            | _ => False) → Q loops x p (k + (isStep p (.step i : Act V)).toNat) t := by
        rintro pc h1 rfl h2
        refine ⟨fun j f hj hf => ?_, mx, bf, ?_⟩
        · replace hj := get_set_cases hj
          rcases hj with ⟨rfl, rfl⟩ | ⟨_, hj⟩
          · exact h1
          · exact no j f hj hf
        · by_cases e : i = p
          · subst e
            refine ⟨_, get_set_self hi, hx, ?_⟩
            have := h2 rfl
            simp only [isStep, beq_self_eq_true, Bool.toNat_true]
            exact this
          · refine ⟨d, by show (s.log.set i _)[p]? = _; rw [get_set_ne (Ne.symm e)]; exact hp, hdx, ?_⟩
            have e' : (i == p) = false := by simpa using e
            simp only [isStep, e', Bool.toNat_false, Nat.add_zero]
            exact hd
      have hdc : i = p → d = c := by rintro rfl; rw [hi] at hp; cases hp; rfl
      unfold step at hs
      cases hp' : c.pc <;> rw [hp'] at hidle <;> simp only [hp'] at hs <;> try (cases hidle; done)
      case get n =>
        rw [hx, mx] at hs
        simp only [Option.some.injEq] at hs
        refine key _ rfl hs fun e => ?_
        rw [hdc e, hp'] at hd
        simp only at hd ⊢
        omega
      case isDel n =>
        rw [hx, hhas _ bf] at hs
        simp only [Bool.false_eq_true, if_false] at hs
        cases n with
        | zero =>
          simp only [Option.some.injEq] at hs
          refine key _ rfl hs fun e => ?_
          rw [hdc e, hp'] at hd
          simp only at hd ⊢
          omega
        | succ n =>
          simp only [Option.some.injEq] at hs
          refine key _ rfl hs fun e => ?_
          rw [hdc e, hp'] at hd
          simp only at hd ⊢
          omega
      case ret => cases hs
    · obtain ⟨pc, hl, _, _⟩ := step_log hs
      obtain ⟨f1, _⟩ := step_frame h hi hs hx
      have hip : p ≠ i := by rintro rfl; rw [hi] at hp; cases hp; exact hx hdx
      refine ⟨fun j f hj hf => ?_, f1.trans mx, step_bf hs x hx bf, d, by rw [hl, get_set_ne hip]; exact hp, hdx, ?_⟩
      · rw [hl] at hj
        replace hj := get_set_cases hj
        rcases hj with ⟨rfl, rfl⟩ | ⟨_, hj⟩
        · exact absurd hf hx
        · exact no j f hj hf
      · have e' : (i == p) = false := by simpa using Ne.symm hip
        simp only [isStep, e', Bool.toNat_false, Nat.add_zero]
        exact hd
  · have hx : c.idx ≠ x := fun e => by
      have := no i c hi e
      rw [hpc] at this; cases this
    have hip : p ≠ i := by rintro rfl; rw [hi] at hp; cases hp; exact hx hdx
    have e0 : (isStep p a).toNat = 0 := by rcases ha with rfl | rfl <;> rfl
    rw [e0]
    refine ⟨fun j f hj hf => ?_, mx, bf, d, by show (s.log.set i _)[p]? = _; rw [get_set_ne hip]; exact hp, hdx, hd⟩
    replace hj := get_set_cases hj
    rcases hj with ⟨rfl, rfl⟩ | ⟨_, hj⟩
    · exact absurd hf hx
    · exact no j f hj hf

theorem q_exec {has : List Id → Id → Bool} {loops : Nat} {x : Id} {p k : Nat} {s t : St V} (h : Inv s) (hq : Q loops x p k s)
    (hhas : ∀ l, x ∉ l → has l x = false) {as : List (Act V)} (hno : ∀ b1 b2, Act.wait b1 b2 x ∉ as) (ht : exec has loops s as = some t) :
    Q loops x p (k + as.countP (isStep p)) t := by
  induction as generalizing s k with
  | nil => simp only [exec, Option.some.injEq] at ht; subst ht; exact hq
  | cons a as ih =>
    simp only [exec] at ht
    cases hact : act has loops s a with
    | none => simp [hact] at ht
    | some u =>
      simp only [hact, Option.bind_some] at ht
      have := ih (inv_act h hact) (q_act h hq hhas (fun b1 b2 e => hno b1 b2 (by simp [← e])) hact) (fun b1 b2 hm => hno b1 b2 (by simp [hm])) ht
      have e : k + (a :: as).countP (isStep p) = k + (isStep p a).toNat + as.countP (isStep p) := by
        rw [List.countP_cons]
        cases isStep p a <;> simp <;> omega
      rw [e]; exact this

/-- Nobody has waited for `x`. -/
structure Q0 (x : Id) (s : St V) : Prop where
  no : ∀ (j : Nat) (d : Call V), s.log[j]? = some d → d.idx = x → idlePc d.pc = true
  mx : s.m x = none
  bf : x ∉ s.bf

theorem q0_exec {has : List Id → Id → Bool} {loops : Nat} {x : Id} {s t : St V} (h : Inv s) (hq : Q0 x s)
    {as : List (Act V)} (hno : ∀ b1 b2, Act.wait b1 b2 x ∉ as) (ht : exec has loops s as = some t) : Q0 x t := by
  induction as generalizing s with
  | nil => simp only [exec, Option.some.injEq] at ht; subst ht; exact hq
  | cons a as ih =>
    simp only [exec] at ht
    cases hact : act has loops s a with
    | none => simp [hact] at ht
    | some u =>
      simp only [hact, Option.bind_some] at ht
      refine ih (inv_act h hact) ?_ (fun b1 b2 hm => hno b1 b2 (by simp [hm])) ht
      obtain ⟨no, mx, bf⟩ := hq
      rcases act_cases hact with ⟨b1, b2, y, rfl, rfl⟩ | ⟨y, v, rfl, rfl⟩ | ⟨y, rfl, rfl⟩ | ⟨i, c, rfl, hi, hs⟩ | ⟨i, c, ch', ha, hi, hpc, ⟨b, hb⟩, rfl⟩
      · refine ⟨fun j f hj hf => ?_, mx, bf⟩
        rcases get_app hj with ⟨hj, _⟩ | ⟨_, rfl⟩
        · exact no j f hj hf
        · exact absurd (by rw [← show y = x from hf]; simp) (hno b1 b2)
      · refine ⟨fun j f hj hf => ?_, mx, bf⟩
        rcases get_app hj with ⟨hj, _⟩ | ⟨_, rfl⟩
        · exact no j f hj hf
        · rfl
      · refine ⟨fun j f hj hf => ?_, mx, bf⟩
        rcases get_app hj with ⟨hj, _⟩ | ⟨_, rfl⟩
        · exact no j f hj hf
        · rfl
      · by_cases hx : c.idx = x
        · have hidle := no i c hi hx
          have key : ∀ pc, idlePc pc = true → s.goto i c pc = u → Q0 x u := by
            rintro pc h1 rfl
            refine ⟨fun j f hj hf => ?_, mx, bf⟩
            replace hj := get_set_cases hj
            rcases hj with ⟨rfl, rfl⟩ | ⟨_, hj⟩
            · exact h1
            · exact no j f hj hf
          unfold step at hs
          cases hp' : c.pc <;> rw [hp'] at hidle <;> simp only [hp'] at hs <;> try (cases hidle; done)
          case get n =>
            rw [hx, mx] at hs
            simp only [Option.some.injEq] at hs
            exact key _ rfl hs
          case isDel n =>
            split at hs
            · simp only [Option.some.injEq] at hs
              exact key _ rfl hs
            · cases n <;> simp only [Option.some.injEq] at hs <;> exact key _ rfl hs
          case ret => cases hs
        · obtain ⟨pc, hl, _, _⟩ := step_log hs
          obtain ⟨f1, _⟩ := step_frame h hi hs hx
          refine ⟨fun j f hj hf => ?_, f1.trans mx, step_bf hs x hx bf⟩
          rw [hl] at hj
          replace hj := get_set_cases hj
          rcases hj with ⟨rfl, rfl⟩ | ⟨_, hj⟩
          · exact absurd hf hx
          · exact no j f hj hf
      · refine ⟨fun j f hj hf => ?_, mx, bf⟩
        replace hj := get_set_cases hj
        rcases hj with ⟨rfl, rfl⟩ | ⟨_, hj⟩
        · have := no j c hi hf
          rw [hpc] at this; cases this
        · exact no j f hj hf

end Gofer.FastAwait
