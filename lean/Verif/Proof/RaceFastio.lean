import Verif.Model.RaceFastio
import Verif.Proof.RaceVal
/-! # `offset` of a fastio handle is free of races -/
namespace Gofer.Race.FastioR
open Gofer.Race

/-- What a goroutine knows: it is in a call, in the fast way, holds the mutex for writing (`some true`) or reading (`some false`). -/
structure K where
  opened : Bool
  fast : Bool
  held : Option Bool

def K.init : K := ⟨false, false, none⟩

def K.next (s : K) : Act Unit Loc Int → K
  | .armw .cc v _ => if s.opened then { s with opened := false } else { s with opened := true, fast := decide (v + 1 ≤ 1) }
  | .lock _ => { s with held := some true }
  | .rlock _ => { s with held := some false }
  | .unlock _ => { s with held := none }
  | .runlock _ => { s with held := none }
  | _ => s

def K.ok (s : K) : Act Unit Loc Int → Prop
  | .armw .cc v w => if s.opened then w = v - 1 ∧ s.held ≠ some false else w = v + 1
  | .rlock _ => s.opened = true ∧ s.fast = true
  | .rd x _ => x ≠ .cc ∧ (x = .offset → s.held ≠ none)
  | .wr x _ => x ≠ .cc ∧ x ≠ .offset
  | .aload x _ => x ≠ .cc ∧ x ≠ .offset
  | .armw x _ _ => x = .offset → s.held ≠ none
  | .go _ => False
  | _ => True

/-- Actions inside a call: no mutexes, not the counter of calls. -/
def inner (off : Bool) : Act Unit Loc Unit → Bool
  | .rd x _ => x ≠ .cc && (off || x ≠ .offset)
  | .wr x _ => x ≠ .cc && x ≠ .offset
  | .armw x _ _ => x ≠ .cc && (off || x ≠ .offset)
  | .chan _ => true
  | _ => false

/-- All accesses of the code satisfy `P`; no mutexes. -/
def each (P : Act Unit Loc Unit → Bool) : Code Unit Loc → Bool
  | .skip => true
  | .rd x => P (.rd x ())
  | .wr x => P (.wr x ())
  | .aload x => P (.aload x ())
  | .armw x => P (.armw x () ())
  | .chan x => P (.chan x)
  | .seq a b => each P a && each P b
  | .alt a b => each P a && each P b
  | .star a => each P a
  | .locked _ _ _ => false

theorem each_runs {P : Act Unit Loc Unit → Bool} {c : Code Unit Loc} {l : List (Act Unit Loc Unit)} (r : c.Runs l) (h : each P c = true) :
    ∀ a ∈ l, P a = true := by
  induction r with
  | skip => simp
  | rd x => simpa [each] using h
  | wr x => simpa [each] using h
  | aload x => simpa [each] using h
  | armw x => simpa [each] using h
  | chan x => simpa [each] using h
  | seq _ _ ih1 ih2 =>
    simp only [each, Bool.and_eq_true] at h
    intro a ha
    rcases List.mem_append.1 ha with ha | ha
    · exact ih1 h.1 a ha
    · exact ih2 h.2 a ha
  | altL _ ih => simp only [each, Bool.and_eq_true] at h; exact ih h.1
  | altR _ ih => simp only [each, Bool.and_eq_true] at h; exact ih h.2
  | starNil => simp
  | starCons _ _ ih1 ih2 =>
    intro a ha
    rcases List.mem_append.1 ha with ha | ha
    · exact ih1 (by simpa [each] using h) a ha
    · exact ih2 h a ha
  | lockedW => simp [each] at h
  | lockedR => simp [each] at h

theorem inner_ok {off : Bool} {l : List (Act Unit Loc Unit)} (h : ∀ a ∈ l, inner off a = true) (s : K) (hs : off = true → s.held ≠ none) :
    Allows K.ok K.next s (l.map lift) ∧ (l.map lift).foldl K.next s = s := by
  induction l with
  | nil => exact ⟨trivial, rfl⟩
  | cons a l ih =>
    have ha := h a List.mem_cons_self
    have ih := ih fun a ha => h a (List.mem_cons_of_mem _ ha)
    have e : K.next s (lift a) = s := by
      cases a with
      | armw x v w => cases x <;> simp_all [inner, lift, K.next]
      | _ => simp_all [inner, lift, K.next]
    have o : K.ok s (lift a) := by
      cases a with
      | armw x v w => cases x <;> simp_all [inner, lift, K.ok]
      | rd x v => cases x <;> simp_all [inner, lift, K.ok]
      | wr x v => cases x <;> simp_all [inner, lift, K.ok]
      | _ => simp_all [inner, lift, K.ok]
    simp only [List.map_cons, Allows, List.foldl_cons, e]
    exact ⟨⟨o, ih.1⟩, ih.2⟩

theorem mem_prefix {A : Type} {p l : List A} (h : p <+: l) {P : A → Prop} (hl : ∀ a ∈ l, P a) : ∀ a ∈ p, P a := fun a ha => hl a (h.subset ha)

/-- Between two calls. -/
def Idle (s : K) : Prop := s.opened = false ∧ s.held ≠ some false

theorem call_ok {c : List (Act Unit Loc Int)} (h : Call c) (s : K) (hs : Idle s) : Allows K.ok K.next s c ∧ Idle (c.foldl K.next s) := by
  obtain ⟨h1, h2⟩ := hs
  cases h with
  | syncFast hv h hp =>
    have i := mem_prefix hp (each_runs (P := inner true) h (by decide))
    have a := inner_ok i ⟨true, true, some true⟩ (by simp)
    simp [allows_append, Allows, K.ok, K.next, h1, hv, a, Idle]
  | writeFast hv h hp =>
    have i := mem_prefix hp (each_runs (P := inner true) h (by decide))
    have a := inner_ok i ⟨true, true, some false⟩ (by simp)
    simp [allows_append, Allows, K.ok, K.next, h1, hv, a, Idle]
  | slow hv h h' =>
    have i := each_runs (P := inner false) h (by decide)
    have i' := each_runs (P := inner true) h' (by decide)
    have a := inner_ok i ⟨true, false, s.held⟩ (by simp)
    have a' := inner_ok i' ⟨true, false, some true⟩ (by simp)
    simp [allows_append, Allows, K.ok, K.next, h1, Int.not_le.2 hv, a, a', Idle]
  | slowErr hv h h' hp =>
    have i := each_runs (P := inner false) h (by decide)
    have i' := mem_prefix hp (each_runs (P := inner true) h' (by decide))
    have a := inner_ok i ⟨true, false, s.held⟩ (by simp)
    have a' := inner_ok i' ⟨true, false, some true⟩ (by simp)
    simp [allows_append, Allows, K.ok, K.next, h1, Int.not_le.2 hv, a, a', Idle]
  | syncDone hv h =>
    have i := each_runs (P := inner false) h (by decide)
    have a := inner_ok i ⟨true, false, s.held⟩ (by simp)
    simp [allows_append, Allows, K.ok, K.next, h1, h2, Int.not_le.2 hv, a, Idle]
  | writeLeft hv h =>
    have i := each_runs (P := inner false) h (by decide)
    have a := inner_ok i ⟨true, false, s.held⟩ (by simp)
    simp [allows_append, Allows, K.ok, K.next, h1, h2, Int.not_le.2 hv, a, Idle]
  | close => simp [Allows, K.ok, K.next, h1, h2, Idle]

section
variable {tr : Trace Unit Loc Int} {S : Nat → St Unit Loc Int} {s0 : St Unit Loc Int}

/-- What `t` knows before the action at `k`. -/
abbrev know (tr : Trace Unit Loc Int) (t k : Nat) : K := at' K.next K.init tr t k

theorem held_agrees (R : Run s0 tr S) : ∀ k ≤ tr.length, ∀ t b, (know tr t k).held = some b → Holds (S k) t () b := by
  intro k
  induction k with
  | zero => intro _ t b h; simp [know, at'_zero, K.init] at h
  | succ k ih =>
    intro hk t b h
    obtain ⟨u, a, e⟩ := nth (tr := tr) (k := k) (by omega)
    have st := R.step k u a e
    generalize S (k + 1) = s' at *
    rw [know, at'_succ e] at h
    by_cases hu : u = t
    · subst hu
      rw [if_pos rfl] at h
      have keep : (know tr u k).held = some b → a ≠ rel () b → Holds s' u () b := by
        intro h1 h2
        by_contra h3
        exact h2 ((hold_step st).1 (ih (by omega) u b h1) h3).2
      cases a with
      | lock m =>
        simp only [K.next, Option.some.injEq] at h
        subst h
        simp only [St.step] at st
        split at st <;> cases st
        simp [Holds, upd]
      | rlock m =>
        simp only [K.next, Option.some.injEq] at h
        subst h
        simp only [St.step] at st
        split at st <;> cases st
        simp [Holds, upd]
      | unlock m => simp [K.next] at h
      | runlock m => simp [K.next] at h
      | armw x v w =>
        apply keep
        · cases x <;> simp only [K.next] at h <;> first | exact h | (split at h <;> exact h)
        · cases b <;> simp [rel]
      | _ =>
        apply keep
        · simpa [K.next] using h
        · cases b <;> simp [rel]
    · rw [if_neg hu] at h
      by_contra h3
      exact hu ((hold_step st).1 (ih (by omega) t b h) h3).1

/-- What an action adds to the counter of calls. -/
def delta : Act Unit Loc Int → Int
  | .armw .cc v w => w - v
  | _ => 0

/-- 1 in a call, 0 outside. -/
def K.one (s : K) : Int := cond s.opened 1 0

theorem delta_sum {l : List (Act Unit Loc Int)} (s : K) (h : Allows K.ok K.next s l) : (l.map delta).sum + s.one = (l.foldl K.next s).one := by
  induction l generalizing s with
  | nil => simp
  | cons a l ih =>
    obtain ⟨h1, h2⟩ := h
    have ih := ih _ h2
    rw [List.map_cons, List.sum_cons, List.foldl_cons, ← ih]
    have : delta a + s.one = (s.next a).one := by
      cases a with
      | armw x v w =>
        cases x <;> simp only [delta, K.next, K.ok] at h1 ⊢ <;> try omega
        split at h1
        · rename_i ho
          simp only [ho, if_true, K.one, cond_true, cond_false]
          omega
        · rename_i ho
          simp only [Bool.not_eq_true] at ho
          simp only [ho, K.one, Bool.false_eq_true, if_false, cond_true, cond_false]
          omega
      | _ => simp [delta, K.next, K.one]
    omega

theorem proj_prefix {M X V : Type} (tr : Trace M X V) (t k : Nat) : proj t (tr.take k) <+: proj t tr := by
  refine ⟨proj t (tr.drop k), ?_⟩
  unfold proj
  rw [← List.map_append, ← List.filter_append, List.take_append_drop]

theorem opened_sum (A : ∀ t, Allows K.ok K.next K.init (proj t tr)) (t k : Nat) :
    ((proj t (tr.take k)).map delta).sum = (know tr t k).one := by
  have := delta_sum K.init (allows_prefix (proj_prefix tr t k) (A t))
  have z : K.init.one = 0 := rfl
  rw [z, Int.add_zero] at this
  exact this

theorem K.one_nonneg (s : K) : 0 ≤ s.one := by
  obtain ⟨o, f, h⟩ := s
  cases o <;> simp [K.one]

/-- The counter of calls counts. -/
theorem count (R : Run s0 tr S) (h0 : s0.mem .cc = 0) (A : ∀ t, Allows K.ok K.next K.init (proj t tr)) : ∀ k ≤ tr.length, (S k).mem .cc = total delta (tr.take k) := by
  intro k
  induction k with
  | zero => intro _; rw [R.zero, h0]; simp [total]
  | succ k ih =>
    intro hk
    obtain ⟨u, a, e⟩ := nth (tr := tr) (k := k) (by omega)
    have st := R.step k u a e
    have ok := allows_at (A u) e
    rw [total_take_succ delta e, ← ih (by omega)]
    generalize S (k + 1) = s' at *
    cases a with
    | armw x v w =>
      simp only [St.step] at st
      split at st <;> cases st
      rename_i hm
      by_cases hx : x = .cc
      · subst hx; simp [upd, delta, ← hm]; omega
      · cases x <;> simp_all [upd, delta]
    | wr x v =>
      simp only [St.step, Option.some.injEq] at st
      rw [← st]
      have : x ≠ .cc := ok.1
      simp [upd, delta, Ne.symm this]
    | lock m => simp only [St.step] at st; split at st <;> cases st; simp [delta]
    | unlock m => simp only [St.step] at st; split at st <;> cases st; simp [delta]
    | rlock m => simp only [St.step] at st; split at st <;> cases st; simp [delta]
    | runlock m => simp only [St.step] at st; split at st <;> cases st; simp [delta]
    | rd x v => simp only [St.step] at st; split at st <;> cases st; simp [delta]
    | aload x v => simp only [St.step] at st; split at st <;> cases st; simp [delta]
    | chan x => simp only [St.step, Option.some.injEq] at st; rw [← st]; simp [delta]
    | go x => exact absurd ok (by simp [K.ok])

/-- When the counter is zero or less nobody is in a call. -/
theorem nobody (R : Run s0 tr S) (h0 : s0.mem .cc = 0) (A : ∀ t, Allows K.ok K.next K.init (proj t tr)) {k : Nat} (hk : k ≤ tr.length)
    (hz : (S k).mem .cc ≤ 0) (t : Nat) : (know tr t k).opened = false := by
  rw [count R h0 A k hk] at hz
  have := le_total delta (tr.take k) (fun u => by rw [opened_sum A]; exact K.one_nonneg _) t
  rw [opened_sum A] at this
  by_contra h
  simp only [Bool.not_eq_false] at h
  simp only [K.one, h, cond_true] at this
  omega

/-- Reading holds are those of the fast way. -/
theorem reading (A : ∀ t, Allows K.ok K.next K.init (proj t tr)) : ∀ k ≤ tr.length, ∀ t, (know tr t k).held = some false →
    (know tr t k).opened = true ∧ (know tr t k).fast = true := by
  intro k
  induction k with
  | zero => intro _ t h; simp [know, at'_zero, K.init] at h
  | succ k ih =>
    intro hk t h
    obtain ⟨u, a, e⟩ := nth (tr := tr) (k := k) (by omega)
    rw [know, at'_succ e] at h ⊢
    by_cases hu : u = t
    · subst hu
      have ok := allows_at (A u) e
      have ih := ih (by omega) u
      rw [if_pos rfl] at h ⊢
      cases a with
      | armw x v w =>
        cases x <;> simp only [K.next, K.ok] at h ok ⊢ <;> try exact ih h
        split at h
        · rename_i ho
          rw [if_pos ho] at ok
          exact absurd h ok.2
        · rename_i ho
          exact absurd (ih h).1 ho
      | rlock m => exact ok
      | lock m => simp [K.next] at h
      | unlock m => simp [K.next] at h
      | runlock m => simp [K.next] at h
      | _ => exact ih h
    · rw [if_neg hu] at h ⊢
      exact ih (by omega) t h

/-- The call of the fast way that is under way began when nobody was in a call. -/
theorem began (R : Run s0 tr S) (h0 : s0.mem .cc = 0) (A : ∀ t, Allows K.ok K.next K.init (proj t tr)) {k t : Nat} (hk : k ≤ tr.length)
    (h1 : (know tr t k).opened = true ∧ (know tr t k).fast = true) :
    ∃ p v w, p < k ∧ tr[p]? = some (t, .armw .cc v w) ∧ (∀ u, (know tr u p).opened = false) ∧ ∀ k', p < k' → k' ≤ k → (know tr t k').opened = true := by
  obtain ⟨p, a, h2, h3, h4, h5⟩ := at'_became (next := K.next) (fun s : K => s.opened = true ∧ s.fast = true) hk h1 (by simp [K.init])
  have q := h5 (p + 1) (by omega) (by omega)
  rw [at'_succ h3, if_pos rfl] at q
  have : ∃ v w, a = .armw .cc v w ∧ (know tr t p).opened = false ∧ v + 1 ≤ 1 := by
    cases a with
    | armw x v w =>
      cases x
      case cc =>
        simp only [K.next] at q
        split at q
        · simp at q
        · rename_i ho
          exact ⟨v, w, rfl, by simpa using ho, by simpa using q.2⟩
      all_goals exact absurd q h4
    | _ => exact absurd q h4
  obtain ⟨v, w, rfl, h6, h7⟩ := this
  refine ⟨p, v, w, h2, h3, nobody R h0 A (by omega) ?_, fun k' a b => (h5 k' a b).1⟩
  have st := R.step p t _ h3
  simp only [St.step] at st
  split at st
  · rename_i hm; omega
  · cases st

/-- `offset` is free of races. -/
theorem offset_free (R : Run s0 tr S) (h0 : s0.mem .cc = 0) (hw : ∀ m, s0.w m = none) (hr : ∀ m, s0.r m = [])
    (A : ∀ t, Allows K.ok K.next K.init (proj t tr)) : ¬ RaceOn tr .offset := by
  rintro ⟨i, j, hij, ⟨t, a⟩, ⟨u, b⟩, hi, hj, ne, ⟨wa, ta, wb, tb, ea, eb, -, -⟩, hn⟩
  apply hn
  simp only at ne ea eb
  have hlj := getq_lt hj
  have hold : ∀ {k t : Nat} {a : Act Unit Loc Int} {w at'' : Bool}, tr[k]? = some (t, a) → a.access = some (.offset, w, at'') → ∃ b, (know tr t k).held = some b := by
    intro k t a w at'' hk ha
    have ok := allows_at (A t) hk
    apply Option.ne_none_iff_exists'.1
    cases a with
    | rd x v => simp only [Act.access, Option.some.injEq, Prod.mk.injEq] at ha; exact ok.2 ha.1
    | wr x v => simp only [Act.access, Option.some.injEq, Prod.mk.injEq] at ha; exact absurd ha.1 ok.2
    | aload x v => simp only [Act.access, Option.some.injEq, Prod.mk.injEq] at ha; exact absurd ha.1 ok.2
    | armw x v w => simp only [Act.access, Option.some.injEq, Prod.mk.injEq] at ha; obtain ⟨rfl, -⟩ := ha; exact ok rfl
    | _ => simp [Act.access] at ha
  obtain ⟨bi, hbi⟩ := hold hi ea
  obtain ⟨bj, hbj⟩ := hold hj eb
  have Hi := held_agrees R i (by omega) t bi hbi
  have Hj := held_agrees R j (by omega) u bj hbj
  by_cases hb' : bi = true ∨ bj = true
  · exact hb_of_holds R hw hr hij ne hi hj Hi Hj hb' (by rw [ea]; simp)
  · simp only [not_or, Bool.not_eq_true] at hb'
    obtain ⟨rfl, rfl⟩ := hb'
    have oi := reading A i (by omega) t hbi
    have oj := reading A j (by omega) u hbj
    obtain ⟨p, v, w, p1, p2, p3, p4⟩ := began R h0 A (by omega) oj
    obtain ⟨q, v', w', q1, q2, q3, q4⟩ := began R h0 A (by omega) oi
    have hip : i < p := by
      by_contra hc
      have hpq : p ≤ q := by
        by_contra hc'
        have := q4 p (by omega) (by omega)
        rw [p3 t] at this
        cases this
      have hpq' : p ≠ q := by
        rintro rfl
        rw [p2] at q2
        simp only [Option.some.injEq, Prod.mk.injEq] at q2
        exact ne q2.1.symm
      have := p4 q (by omega) (by omega)
      rw [q3 u] at this
      cases this
    obtain ⟨e, ae, e1, e2, e3, e4, e5⟩ := at'_ended (next := K.next) (init := K.init) (tr := tr) (t := t) (fun s : K => s.opened = true) (i := i) (p := p) (by omega) (by omega) oi.1 (by
      show ¬ (know tr t p).opened = true
      rw [p3 t]; simp)
    have : ae.awrites .cc := by
      cases ae with
      | armw x v w =>
        cases x
        case cc => exact ⟨v, w, rfl⟩
        all_goals exact absurd e4 e5
      | _ => exact absurd e4 e5
    have hie : i ≠ e := by
      rintro rfl
      rw [hi] at e3
      simp only [Option.some.injEq, Prod.mk.injEq, true_and] at e3
      subst e3
      obtain ⟨o, n, rfl⟩ := this
      simp [Act.access] at ea
    exact Relation.TransGen.trans (hb_po (by omega) hi e3)
      (Relation.TransGen.trans (hb_atomic _ e p rfl e2 e3 p2 this ⟨v, w, rfl⟩) (hb_po p1 p2 hj))

/-- The counter of calls is only accessed atomically. -/
theorem cc_free (A : ∀ t, Allows K.ok K.next K.init (proj t tr)) : ¬ RaceOn tr .cc := by
  rintro ⟨i, j, hij, ⟨t, a⟩, ⟨u, b⟩, hi, hj, ne, ⟨wa, ta, wb, tb, ea, eb, -, hat⟩, hn⟩
  have atom : ∀ {k t : Nat} {a : Act Unit Loc Int} {w at'' : Bool}, tr[k]? = some (t, a) → a.access = some (.cc, w, at'') → at'' = true := by
    intro k t a w at'' hk ha
    have ok := allows_at (A t) hk
    cases a with
    | rd x v => simp only [Act.access, Option.some.injEq, Prod.mk.injEq] at ha; exact absurd ha.1 ok.1
    | wr x v => simp only [Act.access, Option.some.injEq, Prod.mk.injEq] at ha; exact absurd ha.1 ok.1
    | aload x v => simp only [Act.access, Option.some.injEq, Prod.mk.injEq] at ha; exact ha.2.2.symm
    | armw x v w => simp only [Act.access, Option.some.injEq, Prod.mk.injEq] at ha; exact ha.2.2.symm
    | _ => simp [Act.access] at ha
  exact hat ⟨atom hi ea, atom hj eb⟩

end
end Gofer.Race.FastioR
