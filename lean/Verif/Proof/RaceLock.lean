import Verif.Proof.RaceVal
import Verif.Model.RaceLock
/-! # Locks with keys exclude data races -/
namespace Gofer.Race.Keyed

variable {K D : Type} [DecidableEq K]

/-- The protection of the data. -/
def kindOf (ix : K → Option Nat) (key : D → K) (d : D) : Kind Nat :=
  match ix (key d) with
  | some m => .guarded m
  | none => .frozen

/-- The mutexes held are those of the keys. -/
def Fits (ix : K → Option Nat) (W R : List K) (s : LSt Nat D) : Prop :=
  (∀ m, W.countP (fun k => ix k == some m) = if s.hw m then 1 else 0) ∧ (∀ m, R.countP (fun k => ix k == some m) = s.hr m) ∧ ∀ k ∈ W, ix k ≠ none

theorem countP_erase' {p : K → Bool} {k : K} {l : List K} (h : k ∈ l) : l.countP p = (l.erase k).countP p + (if p k then 1 else 0) := by
  have := (List.perm_cons_erase h).countP_eq p
  rw [this, List.countP_cons]

theorem proj_drop {M X V : Type} {tr : Trace M X V} {k t : Nat} {a : Act M X V} (h : tr[k]? = some (t, a)) (u : Nat) :
    proj u (tr.drop k) = if t = u then a :: proj u (tr.drop (k + 1)) else proj u (tr.drop (k + 1)) := by
  have hl : k < tr.length := (List.getElem?_eq_some_iff.1 h).1
  rw [List.drop_eq_getElem_cons hl]
  rw [List.getElem?_eq_getElem hl, Option.some.injEq] at h
  rw [h]
  by_cases e : t = u <;> simp [proj, e]

/-- Discipline from all the actions. -/
theorem disc_of_at {M X V : Type} [DecidableEq M] {kind : X → Kind M} {ment : V → X → Prop} {tr : Trace M X V} {t : Nat}
    (h : ∀ k a, tr[k]? = some (t, a) → allowed kind ment (loc kind ment tr t k) a) : Disc kind ment LSt.init (proj t tr) := by
  have : ∀ k ≤ tr.length, Disc kind ment LSt.init (proj t (tr.take k)) := by
    intro k
    induction k with
    | zero => intro _; simp [proj, Disc]
    | succ k ih =>
      intro hk
      obtain ⟨u, a, e⟩ := nth (tr := tr) (k := k) (by omega)
      rw [proj_take_succ e, disc_append]
      refine ⟨ih (by omega), ?_⟩
      by_cases eu : u = t
      · subst eu
        simp only [if_true]
        exact ⟨h k a e, trivial⟩
      · simp [eu, Disc]
  simpa using this tr.length (Nat.le_refl _)

variable [DecidableEq D]

/-- Where a careful goroutine is before the action at `k`. -/
theorem careful_at {ix : K → Option Nat} {key : D → K} {tr : Trace Nat D Unit} {S : Nat → St Nat D Unit} (R : Run (St.init fun _ => ()) tr S) {t : Nat}
    {p : List (Do K D)} (hc : Careful key [] [] p) (hp : proj t tr <+: run ix p) : ∀ k ≤ tr.length, ∃ W Rd q, Careful key W Rd q ∧
      proj t (tr.drop k) <+: run ix q ∧ Fits ix W Rd (loc (kindOf ix key) noMent tr t k) := by
  intro k
  induction k with
  | zero => intro _; exact ⟨[], [], p, hc, by simpa using hp, by simp [Fits, loc, proj, after, LSt.init]⟩
  | succ k ih =>
    intro hk
    obtain ⟨W, Rd, q, h1, h2, h3⟩ := ih (by omega)
    obtain ⟨u, a, e⟩ := getq_of_lt (tr := tr) (k := k) (by omega)
    rw [proj_drop e] at h2
    rw [loc_succ e]
    by_cases eu : u = t
    swap
    · simp only [eu, if_false] at h2 ⊢
      exact ⟨W, Rd, q, h1, h2, h3⟩
    subst eu
    simp only [if_true] at h2 ⊢
    have st := R.step k u a e
    have ag := agree (kind := kindOf ix key) (ment := noMent) R (fun _ => rfl) (fun _ => rfl) k (by omega) u
    cases q with
    | nil => simp [run] at h2
    | cons d q =>
      simp only [run] at h2
      cases hd : act ix d with
      | none => simp [hd] at h2
      | some b =>
        simp only [hd, List.cons_prefix_cons] at h2
        obtain ⟨rfl, h2⟩ := h2
        obtain ⟨f1, f2, f3⟩ := h3
        cases d with
        | lock key' =>
          simp only [act, Option.map_eq_some_iff] at hd
          obtain ⟨m, hm, rfl⟩ := hd
          refine ⟨_, _, q, h1, h2, fun m' => ?_, f2, fun k' h' => ?_⟩
          swap
          · rcases List.mem_cons.1 h' with rfl | h'
            · rw [hm]; simp
            · exact f3 k' h'
          simp only [St.step] at st
          split at st <;> [rename_i hf; cases st]
          have hn : (loc (kindOf ix key) noMent tr u k).hw m = false := by
            by_contra hx
            simp only [Bool.not_eq_false] at hx
            rw [((ag m).1).2 hx] at hf
            exact absurd hf.1 (by simp)
          have g := f1 m'
          simp only [List.countP_cons, hm, next, upd, g, beq_iff_eq, Option.some.injEq]
          by_cases em : m' = m
          · subst em; simp [hn]
          · have : ¬ m = m' := fun h => em h.symm
            simp [em, this]
        | unlock key' =>
          simp only [act, Option.map_eq_some_iff] at hd
          obtain ⟨m, hm, rfl⟩ := hd
          refine ⟨_, _, q, h1.2, h2, fun m' => ?_, f2, fun k' h' => f3 k' (List.mem_of_mem_erase h')⟩
          have g := f1 m'
          rw [countP_erase' h1.1] at g
          simp only [hm, beq_iff_eq, Option.some.injEq, next, upd] at g ⊢
          by_cases em : m' = m
          · subst em
            simp only [if_true] at g ⊢
            split at g <;> simp only [Bool.false_eq_true, if_false] <;> omega
          · have : ¬ m = m' := fun h => em h.symm
            simp only [em, this, if_false] at g ⊢
            exact g
        | rlock key' =>
          simp only [act, Option.map_eq_some_iff] at hd
          obtain ⟨m, hm, rfl⟩ := hd
          refine ⟨_, _, q, h1, h2, f1, fun m' => ?_, f3⟩
          have g := f2 m'
          simp only [List.countP_cons, hm, next, upd, g, beq_iff_eq, Option.some.injEq]
          by_cases em : m' = m
          · subst em; simp
          · have : ¬ m = m' := fun h => em h.symm
            simp [em, this]
        | runlock key' =>
          simp only [act, Option.map_eq_some_iff] at hd
          obtain ⟨m, hm, rfl⟩ := hd
          refine ⟨_, _, q, h1.2, h2, f1, fun m' => ?_, f3⟩
          have g := f2 m'
          rw [countP_erase' h1.1] at g
          simp only [hm, beq_iff_eq, Option.some.injEq, next, upd] at g ⊢
          by_cases em : m' = m
          · subst em
            simp only [if_true] at g ⊢
            omega
          · have : ¬ m = m' := fun h => em h.symm
            simp only [em, this, if_false] at g ⊢
            exact g
        | read d =>
          simp only [act, Option.some.injEq] at hd
          subst hd
          exact ⟨_, _, q, h1.2, h2, f1, f2, f3⟩
        | write d =>
          simp only [act, Option.some.injEq] at hd
          subst hd
          exact ⟨_, _, q, h1.2, h2, f1, f2, f3⟩

theorem keyed_free {ix : K → Option Nat} {key : D → K} {tr : Trace Nat D Unit} {s : St Nat D Unit} (he : exec (St.init fun _ => ()) tr = some s)
    (hf : ∀ t, ∃ p, Careful key [] [] p ∧ proj t tr <+: run ix p) (d : D) : ¬ RaceOn tr d := by
  obtain ⟨S, R⟩ := exec_run he
  refine no_race (kind := kindOf ix key) (ment := noMent) (S := S) ⟨R, fun _ => rfl, fun _ => rfl, fun _ _ h => h, fun t => disc_of_at fun k a e => ?_,
    fun x h => ?_⟩ ?_
  · obtain ⟨p, hc, hp⟩ := hf t
    have hl := getq_lt e
    obtain ⟨W, Rd, q, h1, h2, f1, f2, f3⟩ := careful_at R hc hp k (by omega)
    rw [proj_drop e] at h2
    simp only [if_true] at h2
    have pos : ∀ {l : List K} {key' : K} {m : Nat}, key' ∈ l → ix key' = some m → 0 < l.countP (fun k => ix k == some m) := by
      intro l key' m hl hm
      exact List.countP_pos_iff.2 ⟨key', hl, by simp [hm]⟩
    have hw : ∀ {m : Nat} {key' : K}, key' ∈ W → ix key' = some m → (loc (kindOf ix key) noMent tr t k).hw m = true := by
      intro m key' hl hm
      have := pos hl hm
      rw [f1 m] at this
      by_contra hx
      simp [hx] at this
    cases q with
    | nil => simp [run] at h2
    | cons x q =>
      simp only [run] at h2
      cases hd : act ix x with
      | none => simp [hd] at h2
      | some b =>
        simp only [hd, List.cons_prefix_cons] at h2
        obtain ⟨rfl, h2⟩ := h2
        cases x with
        | lock key' => simp only [act, Option.map_eq_some_iff] at hd; obtain ⟨m, hm, rfl⟩ := hd; trivial
        | unlock key' => simp only [act, Option.map_eq_some_iff] at hd; obtain ⟨m, hm, rfl⟩ := hd; trivial
        | rlock key' => simp only [act, Option.map_eq_some_iff] at hd; obtain ⟨m, hm, rfl⟩ := hd; trivial
        | runlock key' => simp only [act, Option.map_eq_some_iff] at hd; obtain ⟨m, hm, rfl⟩ := hd; trivial
        | read x =>
          simp only [act, Option.some.injEq] at hd
          subst hd
          refine ⟨fun m hm => ?_, ?_, ?_⟩
          · simp only [kindOf] at hm
            split at hm <;> cases hm
            rename_i hx
            rcases h1.1 with h | h
            · exact .inl (hw h hx)
            · right
              rw [← f2 m]
              exact pos h hx
          all_goals
            simp only [kindOf]
            split <;> simp
        | write x =>
          simp only [act, Option.some.injEq] at hd
          subst hd
          refine ⟨⟨fun m hm => ?_, ?_, ?_, ?_⟩, fun c h => h.elim⟩
          · simp only [kindOf] at hm
            split at hm <;> cases hm
            rename_i hx
            exact hw h1.1 hx
          · simp only [kindOf]
            split <;> simp
          · simp only [kindOf]
            split <;> simp
          · simp only [kindOf]
            split
            · simp
            · rename_i hx
              exact absurd hx (f3 _ h1.1)
  · simp only [kindOf] at h
    split at h <;> cases h
  · simp only [kindOf]
    split <;> simp

/-! ## LimitLock of limit 1 -/

/-- How often the goroutine has the lock. -/
def lnext (h : Nat) : Act Empty (LLoc D) Nat → Nat
  | .armw .ch v w => if v < w then h + 1 else h - 1
  | _ => h

/-- The actions of a careful goroutine that has the lock `h` times. -/
def lok (h : Nat) : Act Empty (LLoc D) Nat → Prop
  | .armw .ch v w => (v = 0 ∧ w = 1) ∨ (v = w + 1 ∧ 0 < h)
  | .armw .count _ _ => True
  | .armw .count' _ _ => True
  | .rd (.data _) _ => 0 < h
  | .wr (.data _) _ => 0 < h
  | _ => False

omit [DecidableEq D] in
theorem lruns_ok {p : List (Do Unit D)} {l : List (Act Empty (LLoc D) Nat)} (r : LRuns 1 p l) : ∀ h, Careful1 h p → Allows lok lnext h l := by
  induction r with
  | nil => intro h _; trivial
  | lock n c hn _ ih =>
    intro h hc
    have : n = 0 := by omega
    subst this
    exact ⟨.inl ⟨rfl, rfl⟩, trivial, ih _ hc⟩
  | unlock n c _ ih =>
    intro h hc
    refine ⟨.inr ⟨rfl, hc.1⟩, trivial, ?_⟩
    have : lnext h (.armw .ch (n + 1) n : Act Empty (LLoc D) Nat) = h - 1 := if_neg (by omega)
    rw [this]
    exact ih _ hc.2
  | read d v _ ih => intro h hc; exact ⟨hc.1, ih _ hc.2⟩
  | write d v _ ih => intro h hc; exact ⟨hc.1, ih _ hc.2⟩

abbrev has (tr : Trace Empty (LLoc D) Nat) (t k : Nat) : Nat := at' lnext 0 tr t k

theorem only_one {tr : Trace Empty (LLoc D) Nat} {S : Nat → St Empty (LLoc D) Nat} (R : Run (St.init fun _ => 0) tr S)
    (A : ∀ t, Allows lok lnext 0 (proj t tr)) : ∀ k ≤ tr.length,
      ((S k).mem .ch = 0 ∧ ∀ t, has tr t k = 0) ∨ ((S k).mem .ch = 1 ∧ ∃ t, has tr t k = 1 ∧ ∀ u, u ≠ t → has tr u k = 0) := by
  intro k
  induction k with
  | zero => intro _; left; rw [R.zero]; exact ⟨rfl, fun t => at'_zero _ _⟩
  | succ k ih =>
    intro hk
    obtain ⟨t, a, e⟩ := nth (tr := tr) (k := k) (by omega)
    have st := R.step k t a e
    have ok := allows_at (A t) e
    have ih := ih (by omega)
    have same : (S (k + 1)).mem .ch = (S k).mem .ch → (∀ h, lnext h a = h) → ((S (k + 1)).mem .ch = 0 ∧ ∀ t, has tr t (k + 1) = 0) ∨
        ((S (k + 1)).mem .ch = 1 ∧ ∃ t, has tr t (k + 1) = 1 ∧ ∀ u, u ≠ t → has tr u (k + 1) = 0) := by
      intro h1 h2
      have h3 : ∀ u, has tr u (k + 1) = has tr u k := by
        intro u
        rw [has, at'_succ e]
        split
        · exact h2 _
        · rfl
      simp only [h1, h3]
      exact ih
    have plain : ∀ (x : LLoc D) (v w : Nat), a = .armw x v w → x ≠ .ch → (S (k + 1)).mem .ch = (S k).mem .ch := by
      rintro x v w rfl hx
      simp only [St.step] at st
      split at st <;> [skip; cases st]
      simp only [Option.some.injEq] at st
      have : ¬ LLoc.ch = x := fun h => hx h.symm
      rw [← st]
      simp [upd, this]
    cases a with
    | armw x v w =>
      cases x with
      | ch =>
        simp only [St.step] at st
        split at st <;> [rename_i hm; cases st]
        simp only [Option.some.injEq] at st
        have hw : (S (k + 1)).mem .ch = w := by rw [← st]; simp [upd]
        simp only [lok] at ok
        rcases ok with ⟨rfl, rfl⟩ | ⟨rfl, hpos⟩
        · right
          rcases ih with ⟨_, ih⟩ | ⟨ih, _⟩
          · refine ⟨hw, t, ?_, fun u hu => ?_⟩
            · rw [has, at'_succ e, if_pos rfl]
              have := ih t
              simp only [has] at this
              simp [lnext, this]
            · rw [has, at'_succ e, if_neg (fun h => hu h.symm)]
              exact ih u
          · omega
        · left
          rcases ih with ⟨ih, _⟩ | ⟨ih, t', ih1, ih2⟩
          · omega
          · have : t = t' := by
              by_contra hne
              have h0 : at' lnext 0 tr t k = 0 := ih2 t hne
              omega
            subst this
            refine ⟨by omega, fun u => ?_⟩
            rw [has, at'_succ e]
            split
            · rename_i hu
              subst hu
              simp only [has] at ih1
              simp [lnext, ih1]
            · rename_i hu
              exact ih2 u fun h => hu h.symm
      | count => exact same (plain _ _ _ rfl (by simp)) fun _ => rfl
      | count' => exact same (plain _ _ _ rfl (by simp)) fun _ => rfl
      | data d => exact ok.elim
    | rd x v =>
      refine same ?_ fun _ => rfl
      simp only [St.step] at st
      split at st <;> [skip; cases st]
      simp only [Option.some.injEq] at st
      rw [st]
    | wr x v =>
      refine same ?_ fun _ => rfl
      simp only [St.step, Option.some.injEq] at st
      rw [← st]
      cases x with
      | data d => simp [upd]
      | _ => exact ok.elim
    | _ => exact ok.elim

/-- No race on data guarded by a `LimitLock` of limit 1. -/
theorem limit_free {tr : Trace Empty (LLoc D) Nat} {s : St Empty (LLoc D) Nat} (he : exec (St.init fun _ => 0) tr = some s)
    (A : ∀ t, Allows lok lnext 0 (proj t tr)) (d : D) : ¬ RaceOn tr (.data d) := by
  obtain ⟨S, R⟩ := exec_run he
  rintro ⟨i, j, hij, ⟨t, a⟩, ⟨u, b⟩, hi, hj, ne, ⟨wa, ta, wb, tb, ea, eb, -, -⟩, hn⟩
  apply hn
  simp only at ne ea eb
  have hlj := getq_lt hj
  have hold : ∀ {k t : Nat} {a : Act Empty (LLoc D) Nat} {w x : Bool}, tr[k]? = some (t, a) → a.access = some (.data d, w, x) → 0 < has tr t k := by
    intro k t a w x hk ha
    have ok := allows_at (A t) hk
    cases a <;> simp only [Act.access, Option.some.injEq, Prod.mk.injEq, reduceCtorEq] at ha <;> obtain ⟨rfl, -⟩ := ha <;> first | exact ok | exact ok.elim
  have Hi := hold hi ea
  have Hj := hold hj eb
  have hu : has tr u i = 0 := by
    rcases only_one R A i (by omega) with ⟨_, h⟩ | ⟨_, t', h1, h2⟩
    · exact h u
    · have : t = t' := by
        by_contra hne
        rw [h2 t hne] at Hi
        omega
      subst this
      exact h2 u fun h => ne h.symm
  obtain ⟨p, c, p1, p2, p3, p4⟩ := at'_became (next := lnext) (init := 0) (tr := tr) (t := u) (fun h => 0 < h) (by omega) Hj (by simp)
  have hip : i < p := by
    by_contra hc
    by_cases hpi : p = i
    · subst hpi
      rw [hi] at p2
      simp only [Option.some.injEq, Prod.mk.injEq] at p2
      exact ne p2.1
    · have := p4 i (by omega) (by omega)
      simp only [has] at hu
      omega
  have q := p4 (p + 1) (by omega) (by omega)
  rw [at'_succ p2, if_pos rfl] at q
  have okp := allows_at (A u) p2
  have hcp : ∃ v w, c = .armw .ch v w ∧ (S p).mem .ch = 0 := by
    cases c with
    | armw x v w =>
      cases x with
      | ch =>
        refine ⟨v, w, rfl, ?_⟩
        simp only [lok] at okp
        rcases okp with ⟨rfl, -⟩ | ⟨-, h⟩
        · have st := R.step p u _ p2
          simp only [St.step] at st
          split at st <;> [rename_i hm; cases st]
          exact hm
        · exact absurd h p3
      | _ => exact absurd q p3
    | _ => exact absurd q p3
  obtain ⟨v, w, rfl, hz⟩ := hcp
  have ht : ¬ 0 < has tr t p := by
    rcases only_one R A p (by omega) with ⟨_, h⟩ | ⟨h, _⟩
    · rw [h t]; simp
    · omega
  obtain ⟨e, ae, e1, e2, e3, e4, e5⟩ := at'_ended (next := lnext) (init := 0) (tr := tr) (t := t) (fun h => 0 < h) (i := i) (p := p) (by omega) (by omega) Hi ht
  have hae : ae.awrites .ch := by
    cases ae with
    | armw x v w =>
      cases x with
      | ch => exact ⟨v, w, rfl⟩
      | _ => exact absurd e4 e5
    | _ => exact absurd e4 e5
  have hie : i ≠ e := by
    rintro rfl
    rw [hi] at e3
    simp only [Option.some.injEq, Prod.mk.injEq, true_and] at e3
    subst e3
    obtain ⟨o, n, rfl⟩ := hae
    simp [Act.access] at ea
  exact Relation.TransGen.trans (hb_po (by omega) hi e3)
    (Relation.TransGen.trans (hb_atomic _ e p rfl e2 e3 p2 hae ⟨v, w, rfl⟩) (hb_po p1 p2 hj))

end Gofer.Race.Keyed
