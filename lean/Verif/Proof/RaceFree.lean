import Verif.Proof.Race
/-! # Lock discipline excludes data races: the theorem -/
namespace Gofer.Race

variable {M X V : Type} [DecidableEq M] [DecidableEq X] [DecidableEq V]
variable {s0 : St M X V} {tr : Trace M X V} {S : Nat → St M X V}

theorem getq_lt {k : Nat} {e : Nat × Act M X V} (h : tr[k]? = some e) : k < tr.length := by
  rw [List.getElem?_eq_some_iff] at h; exact h.1

theorem getq_of_lt {k : Nat} (h : k < tr.length) : ∃ t a, tr[k]? = some (t, a) :=
  ⟨_, _, by rw [List.getElem?_eq_getElem h]⟩

/-- A writer excludes readers. -/
theorem excl (R : Run s0 tr S) (h0 : ∀ m, s0.w m = none) : ∀ k ≤ tr.length, ∀ m t, (S k).w m = some t → (S k).r m = [] := by
  intro k
  induction k with
  | zero => intro _ m t h; rw [R.zero, h0] at h; cases h
  | succ k ih =>
    intro hk m t h
    obtain ⟨u, a, e⟩ := getq_of_lt (tr := tr) (k := k) (by omega)
    have ih := ih (by omega) m
    have st := R.step k u a e
    generalize S k = s at *
    generalize S (k + 1) = s' at *
    cases a <;> simp only [St.step] at st <;> (try split at st) <;>
      first
      | cases st
      | (simp only [Option.some.injEq] at st; subst st)
    all_goals first | exact ih t h | skip
    all_goals rename_i m' hc; by_cases em : m = m' <;> simp_all [upd]

/-- A hold that ends is released. -/
theorem released (R : Run s0 tr S) {t : Nat} {m : M} {b : Bool} {i : Nat} (hi : Holds (S i) t m b) :
    ∀ k, i ≤ k → k ≤ tr.length → ¬ Holds (S k) t m b → ∃ r, i ≤ r ∧ r < k ∧ tr[r]? = some (t, rel m b) := by
  intro k hik
  induction k with
  | zero =>
    intro _ h
    have : i = 0 := by omega
    subst this; exact absurd hi h
  | succ k ih =>
    intro hl h
    by_cases hk0 : i = k + 1
    · subst hk0; exact absurd hi h
    have hk : i ≤ k := by omega
    have ih := ih hk
    by_cases hh : Holds (S k) t m b
    · obtain ⟨u, a, e⟩ := getq_of_lt (tr := tr) (k := k) (by omega)
      obtain ⟨rfl, rfl⟩ := (hold_step (R.step k u a e)).1 hh h
      exact ⟨k, hk, by omega, e⟩
    · obtain ⟨r, h1, h2, h3⟩ := ih (by omega) hh
      exact ⟨r, h1, by omega, h3⟩

/-- A hold was begun. -/
theorem acquired (R : Run s0 tr S) {t : Nat} {m : M} {b : Bool} (h0 : ¬ Holds s0 t m b) :
    ∀ j ≤ tr.length, Holds (S j) t m b →
      ∃ a, a < j ∧ tr[a]? = some (t, acq m b) ∧ ∀ k, a < k → k ≤ j → Holds (S k) t m b := by
  intro j
  induction j with
  | zero => intro _ h; rw [R.zero] at h; exact absurd h h0
  | succ j ih =>
    intro hl h
    by_cases hh : Holds (S j) t m b
    · obtain ⟨a, h1, h2, h3⟩ := ih (by omega) hh
      refine ⟨a, by omega, h2, fun k hk hk' => ?_⟩
      by_cases e : k = j + 1
      · subst e; exact h
      · exact h3 k hk (by omega)
    · obtain ⟨u, a, e⟩ := getq_of_lt (tr := tr) (k := j) (by omega)
      obtain ⟨rfl, rfl⟩ := (hold_step (R.step j u a e)).2 hh h
      refine ⟨j, by omega, e, fun k hk hk' => ?_⟩
      have : k = j + 1 := by omega
      subst this; exact h

omit [DecidableEq M] [DecidableEq X] [DecidableEq V] in
theorem hb_po {i j t : Nat} {a b : Act M X V} (h : i < j) (hi : tr[i]? = some (t, a)) (hj : tr[j]? = some (t, b)) : hb tr i j :=
  .single ⟨h, _, _, hi, hj, .inl rfl⟩

/-- Two holds that exclude each other are ordered. -/
theorem hb_of_holds (R : Run s0 tr S) (hw : ∀ m, s0.w m = none) (hr : ∀ m, s0.r m = [])
    {i j t u : Nat} {m : M} {b c : Bool} {ai aj : Act M X V} (hij : i < j) (ne : t ≠ u)
    (hi : tr[i]? = some (t, ai)) (hj : tr[j]? = some (u, aj)) (Hi : Holds (S i) t m b) (Hj : Holds (S j) u m c)
    (hbc : b = true ∨ c = true) (hai : ai.access ≠ none) : hb tr i j := by
  have hlj := getq_lt hj
  have ex := excl R hw
  have conflict : ∀ k ≤ tr.length, Holds (S k) t m b → Holds (S k) u m c → False := by
    intro k hk h1 h2
    cases b <;> cases c <;> simp_all [Holds]
  obtain ⟨a, h1, h2, h3⟩ := acquired R (t := u) (m := m) (b := c) (by cases c <;> simp [Holds, hw, hr]) j (by omega) Hj
  have hia : i ≤ a := by
    by_contra hlt
    exact conflict i (by omega) Hi (h3 i (by omega) (by omega))
  have st := R.step a u _ h2
  have hna : ¬ Holds (S a) t m b := by
    intro hh
    cases c
    · have hb : b = true := by simpa using hbc
      subst hb
      simp only [Holds] at hh
      simp only [acq, St.step, hh] at st
      cases st
    · simp only [acq, St.step] at st
      split at st
      · rename_i hc
        cases b <;> simp_all [Holds]
      · cases st
  obtain ⟨r, r1, r2, r3⟩ := released R Hi a hia (by omega) hna
  have hir : i < r := by
    rcases Nat.lt_or_eq_of_le r1 with h | rfl
    · exact h
    · rw [hi] at r3
      simp only [Option.some.injEq, Prod.mk.injEq, true_and] at r3
      subst r3
      cases b <;> simp [rel, Act.access] at hai
  have e1 : edge tr i r := ⟨hir, _, _, hi, r3, .inl rfl⟩
  have e2 : edge tr r a := by
    refine ⟨r2, _, _, r3, h2, .inr (.inl ?_)⟩
    cases b <;> cases c <;> simp_all [rel, acq, syncs]
  have e3 : edge tr a j := ⟨h1, _, _, h2, hj, .inl rfl⟩
  exact ((Relation.TransGen.single e1).tail e2).tail e3

section
variable {kind : X → Kind M} {ment : V → X → Prop}

/-- What a goroutine believes to hold it holds. -/
theorem agree (R : Run s0 tr S) (hw : ∀ m, s0.w m = none) (hr : ∀ m, s0.r m = []) :
    ∀ k ≤ tr.length, ∀ t m, ((S k).w m = some t ↔ (loc kind ment tr t k).hw m = true) ∧
      List.count t ((S k).r m) = (loc kind ment tr t k).hr m := by
  intro k
  induction k with
  | zero => intro _ t m; rw [R.zero, hw, hr]; simp [loc, proj, after, LSt.init]
  | succ k ih =>
    intro hk t m
    obtain ⟨u, a, e⟩ := getq_of_lt (tr := tr) (k := k) (by omega)
    have ih := ih (by omega) t m
    have st := R.step k u a e
    rw [loc_succ e]
    generalize S k = s at *
    generalize S (k + 1) = s' at *
    generalize loc kind ment tr t k = l at *
    by_cases ut : u = t
    · subst ut
      cases a <;> simp only [St.step] at st <;> (try split at st) <;>
        first
        | cases st
        | (simp only [Option.some.injEq] at st; subst st)
      all_goals first | simpa [next] using ih | skip
      all_goals rename_i m' hc; by_cases em : m = m' <;> simp_all [upd, next]
    · have tu : t ≠ u := fun h => ut h.symm
      cases a <;> simp only [St.step] at st <;> (try split at st) <;>
        first
        | cases st
        | (simp only [Option.some.injEq] at st; subst st)
      all_goals first | simpa [next, ut] using ih | skip
      all_goals rename_i m' hc; by_cases em : m = m' <;> simp_all [upd, next, List.count_erase_of_ne]

/-- The last write. -/
theorem last_write (R : Run s0 tr S) (x : X) :
    ∀ k ≤ tr.length, (S k).mem x = s0.mem x ∨
      ∃ i < k, ∃ t, ((tr[i]? = some (t, .wr x ((S k).mem x)) ∨ ∃ o, tr[i]? = some (t, .armw x o ((S k).mem x))) ∧
        ∀ l, i < l → l < k → ∀ c, tr[l]? = some c → ¬ c.2.awrites x) := by
  intro k
  induction k with
  | zero => intro _; left; rw [R.zero]
  | succ k ih =>
    intro hk
    obtain ⟨u, a, e⟩ := getq_of_lt (tr := tr) (k := k) (by omega)
    have ih := ih (by omega)
    have st := R.step k u a e
    have keep : (S (k + 1)).mem x = (S k).mem x → ¬ a.awrites x → (S (k + 1)).mem x = s0.mem x ∨
      ∃ i < k + 1, ∃ t, ((tr[i]? = some (t, .wr x ((S (k + 1)).mem x)) ∨ ∃ o, tr[i]? = some (t, .armw x o ((S (k + 1)).mem x))) ∧
        ∀ l, i < l → l < k + 1 → ∀ c, tr[l]? = some c → ¬ c.2.awrites x) := by
      intro he ha
      rw [he]
      rcases ih with h | ⟨i, hi, t, h1, h2⟩
      · exact .inl h
      · refine .inr ⟨i, by omega, t, h1, fun l hl hl' c hc => ?_⟩
        by_cases elk : l = k
        · subst elk; rw [e] at hc; cases hc; exact ha
        · exact h2 l hl (by omega) c hc
    cases a with
    | wr y v =>
      simp only [St.step, Option.some.injEq] at st
      by_cases exy : x = y
      · subst exy
        right
        refine ⟨k, by omega, u, .inl ?_, fun l hl hl' => by omega⟩
        rw [← st]; simpa [upd] using e
      · exact keep (by rw [← st]; simp [upd, exy]) (by simp [Act.awrites])
    | armw y v w =>
      simp only [St.step] at st
      split at st
      · simp only [Option.some.injEq] at st
        by_cases exy : x = y
        · subst exy
          right
          refine ⟨k, by omega, u, .inr ⟨v, ?_⟩, fun l hl hl' => by omega⟩
          rw [← st]; simpa [upd] using e
        · refine keep (by rw [← st]; simp [upd, exy]) ?_
          rintro ⟨o, n, h⟩; cases h; exact exy rfl
      · cases st
    | _ =>
      simp only [St.step] at st
      refine keep ?_ (by simp [Act.awrites])
      first
      | (split at st <;> first | (simp only [Option.some.injEq] at st; rw [← st]) | cases st)
      | (simp only [Option.some.injEq] at st; rw [← st])

/-- `c` was written before something goroutine `t` did before `k`. -/
def Seen (tr : Trace M X V) (t k : Nat) (c : X) : Prop :=
  ∃ w u v e b, tr[w]? = some (u, .wr c v) ∧ tr[e]? = some (t, b) ∧ e < k ∧ (w = e ∨ hb tr w e)

omit [DecidableEq M] [DecidableEq X] [DecidableEq V] in
theorem Seen.hb {t k : Nat} {c : X} {a : Act M X V} (h : Seen tr t k c) (hk : tr[k]? = some (t, a)) :
    ∃ w u v, w < k ∧ tr[w]? = some (u, .wr c v) ∧ Race.hb tr w k := by
  obtain ⟨w, u, v, e, b, h1, h2, h3, h4⟩ := h
  have : Race.hb tr w k := by
    rcases h4 with rfl | h4
    · exact hb_po h3 h2 hk
    · exact h4.tail ⟨h3, _, _, h2, hk, .inl rfl⟩
  refine ⟨w, u, v, ?_, h1, this⟩
  clear * - this
  induction this with
  | single h => exact h.1
  | tail _ h ih => exact Nat.lt_trans ih h.1

omit [DecidableEq M] [DecidableEq X] [DecidableEq V] in
theorem Seen.mono {t k k' : Nat} {c : X} (h : Seen tr t k c) (hk : k ≤ k') : Seen tr t k' c := by
  obtain ⟨w, u, v, e, b, h1, h2, h3, h4⟩ := h
  exact ⟨w, u, v, e, b, h1, h2, by omega, h4⟩

structure Setup (kind : X → Kind M) (ment : V → X → Prop) (s0 : St M X V) (tr : Trace M X V) (S : Nat → St M X V) : Prop where
  run : Run s0 tr S
  hw : ∀ m, s0.w m = none
  hr : ∀ m, s0.r m = []
  hm : ∀ x c, ¬ ment (s0.mem x) c
  disc : ∀ t, Disc kind ment LSt.init (proj t tr)
  fresh : FreshAlloc (fun x => kind x = .cell) tr

theorem holds_of_hw (P : Setup kind ment s0 tr S) {k t : Nat} {m : M} (hk : k ≤ tr.length)
    (h : (loc kind ment tr t k).hw m = true) : Holds (S k) t m true :=
  ((agree P.run P.hw P.hr k hk t m).1).2 h

theorem holds_of_any (P : Setup kind ment s0 tr S) {k t : Nat} {m : M} (hk : k ≤ tr.length)
    (h : (loc kind ment tr t k).hw m = true ∨ 0 < (loc kind ment tr t k).hr m) : ∃ b, Holds (S k) t m b := by
  rcases h with h | h
  · exact ⟨true, holds_of_hw P hk h⟩
  · refine ⟨false, ?_⟩
    rw [← (agree P.run P.hw P.hr k hk t m).2] at h
    exact List.count_pos_iff.1 h

/-- What an access is allowed to do. -/
theorem access_ok (P : Setup kind ment s0 tr S) {k t : Nat} {a : Act M X V} {x : X} {w at' : Bool}
    (hk : tr[k]? = some (t, a)) (ha : a.access = some (x, w, at')) :
    (∀ m, kind x = .guarded m → ∃ b, Holds (S k) t m b ∧ (w = true → b = true)) ∧ (kind x = .atomic → at' = true) ∧
    (kind x = .cell → at' = false ∧ (w = false → (loc kind ment tr t k).K x) ∧ (w = true → ∃ v, a = .wr x v)) ∧
    (kind x = .frozen → w = false) := by
  have hl := getq_lt hk
  have da := disc_at (P.disc t) hk
  have R : ∀ at', canRead kind (loc kind ment tr t k) x at' →
      (∀ m, kind x = .guarded m → ∃ b, Holds (S k) t m b ∧ (false = true → b = true)) := by
    intro at' da m hm
    obtain ⟨b, hb⟩ := holds_of_any P (by omega) (da.1 m hm)
    exact ⟨b, hb, fun h => by cases h⟩
  have W : ∀ at', canWrite kind (loc kind ment tr t k) x at' →
      (∀ m, kind x = .guarded m → ∃ b, Holds (S k) t m b ∧ (true = true → b = true)) := by
    intro at' da m hm
    exact ⟨true, holds_of_hw P (by omega) (da.1 m hm), fun _ => rfl⟩
  cases a <;> simp only [Act.access, Option.some.injEq, Prod.mk.injEq, reduceCtorEq] at ha <;> obtain ⟨rfl, rfl, rfl⟩ := ha
  · exact ⟨R _ da, da.2.1, fun h => ⟨rfl, fun _ => (da.2.2 h).2, fun h => by cases h⟩, fun _ => rfl⟩
  · exact ⟨W _ da.1, da.1.2.1, fun h => ⟨rfl, (fun h => absurd h (by simp)), fun _ => ⟨_, rfl⟩⟩, fun h => absurd h da.1.2.2.2⟩
  · exact ⟨R _ da, fun _ => rfl, fun h => absurd (da.2.2 h).1 (by simp), fun _ => rfl⟩
  · exact ⟨W _ da.1, fun _ => rfl, fun h => absurd (da.1.2.2.1 h) (by simp), fun h => absurd h da.1.2.2.2⟩

/-- A read sees the write it is ordered after. -/
theorem hb_read (P : Setup kind ment s0 tr S) {i k t u : Nat} {x : X} {ai ak : Act M X V} {ta wk tk : Bool}
    (seen : ∀ c, (loc kind ment tr t k).K c → Seen tr t k c)
    (hik : i < k) (hi : tr[i]? = some (u, ai)) (hk : tr[k]? = some (t, ak)) (nf : kind x ≠ .free)
    (hai : ai.access = some (x, true, ta)) (hak : ak.access = some (x, wk, tk))
    (hta : ta = true → ai.awrites x) (hwk : tk = false → wk = false)
    (last : ∀ l, i < l → l < k → ∀ c, tr[l]? = some c → ¬ c.2.awrites x) : hb tr i k := by
  obtain ⟨h1, h2, h3, h4⟩ := access_ok P hi hai
  obtain ⟨g1, g2, g3, g4⟩ := access_ok P hk hak
  cases hkind : kind x with
  | guarded m =>
    by_cases ut : u = t
    · subst ut; exact hb_po hik hi hk
    · obtain ⟨b, hb, hb'⟩ := h1 m hkind
      obtain ⟨c, hc, _⟩ := g1 m hkind
      exact hb_of_holds P.run P.hw P.hr hik ut hi hk hb hc (.inl (hb' rfl)) (by rw [hai]; simp)
  | atomic =>
    have := g2 hkind
    subst this
    exact .single ⟨hik, _, _, hi, hk, .inr (.inr ⟨x, hta (h2 hkind), ⟨wk, hak⟩, last⟩)⟩
  | cell =>
    obtain ⟨v, rfl⟩ := (h3 hkind).2.2 rfl
    obtain ⟨w, u', v'', k1, k2, k3⟩ := (seen x ((g3 hkind).2.1 (hwk (g3 hkind).1))).hb hk
    rw [P.fresh x hkind _ _ _ _ _ _ hi k2]; exact k3
  | frozen => exact absurd (h4 hkind) (by simp)
  | free => exact absurd hkind nf

theorem value_read {s s' : St M X V} {t : Nat} {x : X} {v : V} {a : Act M X V} (h : s.step t a = some s')
    (ha : a = .rd x v ∨ a = .aload x v ∨ ∃ n, a = .armw x v n) : s.mem x = v := by
  rcases ha with rfl | rfl | ⟨n, rfl⟩ <;> simp only [St.step] at h <;> split at h <;> first | assumption | cases h

/-- Known cells were written before. -/
theorem seen_all (P : Setup kind ment s0 tr S) :
    ∀ k ≤ tr.length, ∀ t c, (loc kind ment tr t k).K c → Seen tr t k c := by
  intro k
  induction k using Nat.strongRecOn with
  | ind k IH =>
  intro hk t c hc
  cases k with
  | zero => simp [loc, proj, after, LSt.init] at hc
  | succ k =>
  obtain ⟨u, a, e⟩ := getq_of_lt (tr := tr) (k := k) (by omega)
  rw [loc_succ e] at hc
  have prev : ∀ c, (loc kind ment tr t k).K c → Seen tr t k c := IH k (by omega) (by omega) t
  by_cases ut : u = t
  swap
  · simp only [ut, if_false] at hc
    exact (prev c hc).mono (by omega)
  subst ut
  simp only [if_true] at hc
  -- a value read
  have rdcase : ∀ x v, (a = .rd x v ∨ a = .aload x v ∨ ∃ n, a = .armw x v n) → ment v c → Seen tr u (k + 1) c := by
    intro x v ha hv
    have hval := value_read (P.run.step k u a e) ha
    rcases last_write P.run x k (by omega) with h | ⟨i, hi, t', h1, h2⟩
    · rw [← hval, h] at hv; exact absurd hv (P.hm x c)
    · rw [hval] at h1
      have hak : ∃ wk tk, a.access = some (x, wk, tk) ∧ (tk = false → wk = false) := by
        rcases ha with rfl | rfl | ⟨n, rfl⟩
        · exact ⟨_, _, rfl, fun _ => rfl⟩
        · exact ⟨_, _, rfl, fun _ => rfl⟩
        · exact ⟨_, _, rfl, fun h => by cases h⟩
      obtain ⟨wk, tk, hak, hwk⟩ := hak
      have hik : hb tr i k := by
        rcases h1 with h1 | ⟨o, h1⟩
        · exact hb_read P prev hi h1 e ((disc_at (P.disc t') h1).2 c hv).2 rfl hak (by simp) hwk h2
        · exact hb_read P prev hi h1 e ((disc_at (P.disc t') h1).2 c hv).2 rfl hak (fun _ => ⟨_, _, rfl⟩) hwk h2
      have seen_i : ∃ a', tr[i]? = some (t', a') ∧ (Seen tr t' i c ∨ ∃ o, a' = .armw x o v ∧ ment o c) := by
        rcases h1 with h1 | ⟨o, h1⟩
        · exact ⟨_, h1, .inl (IH i (by omega) (by omega) t' c ((disc_at (P.disc t') h1).2 c hv).1)⟩
        · refine ⟨_, h1, ?_⟩
          rcases ((disc_at (P.disc t') h1).2 c hv).1 with h | h
          · exact .inl (IH i (by omega) (by omega) t' c h)
          · exact .inr ⟨o, rfl, h⟩
      obtain ⟨a', ha', hs⟩ := seen_i
      have : ∃ w u' v', tr[w]? = some (u', .wr c v') ∧ hb tr w i ∨ ∃ w u' v', tr[w]? = some (u', .wr c v') ∧ hb tr w k := by
        rcases hs with hs | ⟨o, rfl, ho⟩
        · obtain ⟨w, u', v', _, h3, h4⟩ := hs.hb ha'
          exact ⟨w, u', v', .inl ⟨h3, h4⟩⟩
        · have h5 : (loc kind ment tr t' (i + 1)).K c := by
            rw [loc_succ ha']; simp only [if_true]; exact .inr ho
          obtain ⟨w, u', v', e', b', g1, g2, g3, g4⟩ := IH (i + 1) (by omega) (by omega) t' c h5
          refine ⟨w, u', v', .inr ⟨w, u', v', g1, ?_⟩⟩
          by_cases ei : e' = i
          · subst ei
            rcases g4 with g4 | g4
            · subst g4; exact hik
            · exact g4.trans hik
          · have := hb_po (show e' < i by omega) g2 ha'
            rcases g4 with g4 | g4
            · subst g4; exact this.trans hik
            · exact (g4.trans this).trans hik
      obtain ⟨w, u', v', ⟨h3, h4⟩ | ⟨w, u', v', h3, h4⟩⟩ := this
      · exact ⟨w, u', v', k, a, h3, e, by omega, .inr (h4.trans hik)⟩
      · exact ⟨w, u', v', k, a, h3, e, by omega, .inr h4⟩
  have old : (loc kind ment tr u k).K c → Seen tr u (k + 1) c := fun h => (prev c h).mono (by omega)
  cases a with
  | rd x v => exact hc.elim old (rdcase x v (.inl rfl))
  | aload x v => exact hc.elim old (rdcase x v (.inr (.inl rfl)))
  | armw x v n => exact hc.elim old (rdcase x v (.inr (.inr ⟨n, rfl⟩)))
  | wr x v =>
    rcases hc with hc | ⟨rfl, _⟩
    · exact old hc
    · exact ⟨k, u, v, k, _, e, e, by omega, .inl rfl⟩
  | _ => exact old hc

/-- Discipline excludes races. -/
theorem no_race (P : Setup kind ment s0 tr S) {x : X} (nf : kind x ≠ .free) : ¬ RaceOn tr x := by
  rintro ⟨i, j, hij, ⟨t, a⟩, ⟨u, b⟩, hi, hj, ne, ⟨wa, ta, wb, tb, ea, eb, hwr, hat⟩, nhb⟩
  have hlj := getq_lt hj
  apply nhb
  simp only at ne ea eb
  obtain ⟨h1, h2, h3, h4⟩ := access_ok P hi ea
  obtain ⟨g1, g2, g3, g4⟩ := access_ok P hj eb
  cases hkind : kind x with
  | guarded m =>
    obtain ⟨b1, hb1, hb1'⟩ := h1 m hkind
    obtain ⟨b2, hb2, hb2'⟩ := g1 m hkind
    exact hb_of_holds P.run P.hw P.hr hij ne hi hj hb1 hb2 (hwr.imp hb1' hb2') (by rw [ea]; simp)
  | atomic => exact absurd ⟨h2 hkind, g2 hkind⟩ hat
  | cell =>
    obtain ⟨_, h5, h6⟩ := h3 hkind
    obtain ⟨_, g5, g6⟩ := g3 hkind
    cases wb with
    | false =>
      have hwa : wa = true := by simpa using hwr
      obtain ⟨v, rfl⟩ := h6 hwa
      obtain ⟨w, u', v', _, k2, k3⟩ := (seen_all P j (by omega) u x (g5 rfl)).hb hj
      rw [P.fresh x hkind _ _ _ _ _ _ hi k2]; exact k3
    | true =>
      obtain ⟨v, rfl⟩ := g6 rfl
      cases wa with
      | true =>
        obtain ⟨v', rfl⟩ := h6 rfl
        have := P.fresh x hkind _ _ _ _ _ _ hi hj
        omega
      | false =>
        obtain ⟨w, u', v', k1, k2, k3⟩ := (seen_all P i (by omega) t x (h5 rfl)).hb hi
        have := P.fresh x hkind _ _ _ _ _ _ k2 hj
        omega
  | frozen => simp [h4 hkind, g4 hkind] at hwr
  | free => exact absurd hkind nf
end

end Gofer.Race
