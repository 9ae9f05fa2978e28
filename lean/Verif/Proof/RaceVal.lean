import Verif.Proof.RaceCode
/-! # Races excluded by what the goroutines know: automata over the actions of one goroutine, counters, atomic chains -/
namespace Gofer.Race

variable {M X V L : Type}

theorem nth {tr : Trace M X V} {k : Nat} (h : k < tr.length) : ∃ t a, tr[k]? = some (t, a) := ⟨tr[k].1, tr[k].2, List.getElem?_eq_getElem h⟩

/-- The state of an automaton that reads the actions of goroutine `t`, before the action at `k`. -/
def at' (next : L → Act M X V → L) (init : L) (tr : Trace M X V) (t k : Nat) : L := (proj t (tr.take k)).foldl next init

/-- The automaton allows every action of the list. -/
def Allows (ok : L → Act M X V → Prop) (next : L → Act M X V → L) : L → List (Act M X V) → Prop
  | _, [] => True
  | s, a :: l => ok s a ∧ Allows ok next (next s a) l

section
variable {ok : L → Act M X V → Prop} {next : L → Act M X V → L} {init : L}

theorem allows_append {s : L} {l l' : List (Act M X V)} :
    Allows ok next s (l ++ l') ↔ Allows ok next s l ∧ Allows ok next (l.foldl next s) l' := by
  induction l generalizing s with
  | nil => simp [Allows]
  | cons a l ih => simp [Allows, ih, and_assoc]

theorem allows_prefix {s : L} {l l' : List (Act M X V)} (h : l <+: l') (d : Allows ok next s l') : Allows ok next s l := by
  obtain ⟨r, rfl⟩ := h
  exact (allows_append.1 d).1

theorem at'_zero (tr : Trace M X V) (t : Nat) : at' next init tr t 0 = init := by simp [at', proj]

theorem at'_succ {tr : Trace M X V} {k t : Nat} {a : Act M X V} (h : tr[k]? = some (t, a)) (u : Nat) :
    at' next init tr u (k + 1) = if t = u then next (at' next init tr u k) a else at' next init tr u k := by
  rw [at', proj_take_succ h, List.foldl_append]
  by_cases e : t = u <;> simp [e, at']

theorem allows_at {tr : Trace M X V} {k t : Nat} {a : Act M X V} (d : Allows ok next init (proj t tr)) (h : tr[k]? = some (t, a)) :
    ok (at' next init tr t k) a := by
  obtain ⟨r, e⟩ := proj_split h
  rw [e] at d
  exact (allows_append.1 d).2.1

/-- Calls that start and end in states of `P` are allowed one after another. -/
theorem allows_calls {P : L → Prop} {calls : List (List (Act M X V))} (h : ∀ c ∈ calls, ∀ s, P s → Allows ok next s c ∧ P (c.foldl next s)) :
    ∀ {s : L}, P s → Allows ok next s calls.flatten := by
  induction calls with
  | nil => intro s _; exact trivial
  | cons c calls ih =>
    intro s hs
    obtain ⟨h1, h2⟩ := h c List.mem_cons_self s hs
    rw [List.flatten_cons, allows_append]
    exact ⟨h1, ih (fun c hc => h c (List.mem_cons_of_mem _ hc)) h2⟩

theorem allows_follows {P : L → Prop} {C : List (Act M X V) → Prop} (h : ∀ c, C c → ∀ s, P s → Allows ok next s c ∧ P (c.foldl next s)) (h0 : P init)
    {tr : Trace M X V} (hf : Follows C tr) (t : Nat) : Allows ok next init (proj t tr) := by
  obtain ⟨calls, h1, h2⟩ := hf t
  exact allows_prefix h2 (allows_calls (fun c hc => h c (h1 c hc)) h0)

/-- A property that holds at `k'` and not at `k` came about by an action of the goroutine itself. -/
theorem at'_became {tr : Trace M X V} {t : Nat} (Q : L → Prop) {k' : Nat} (hl : k' ≤ tr.length) (h1 : Q (at' next init tr t k')) (h0 : ¬ Q init) :
    ∃ p a, p < k' ∧ tr[p]? = some (t, a) ∧ ¬ Q (at' next init tr t p) ∧ ∀ k, p < k → k ≤ k' → Q (at' next init tr t k) := by
  induction k' with
  | zero => rw [at'_zero] at h1; exact absurd h1 h0
  | succ k' ih =>
    by_cases hq : Q (at' next init tr t k')
    · obtain ⟨p, a, h2, h3, h4, h5⟩ := ih (by omega) hq
      refine ⟨p, a, by omega, h3, h4, fun k hk hk' => ?_⟩
      by_cases e : k = k' + 1
      · subst e; exact h1
      · exact h5 k hk (by omega)
    · obtain ⟨u, a, e⟩ := nth (tr := tr) (k := k') (by omega)
      have s := at'_succ (next := next) (init := init) e t
      by_cases hu : u = t
      · subst hu
        refine ⟨k', a, by omega, e, hq, fun k hk hk' => ?_⟩
        have : k = k' + 1 := by omega
        subst this; exact h1
      · rw [if_neg hu] at s
        rw [s] at h1
        exact absurd h1 hq

/-- A property that holds at `i` and not at `p` was ended by an action of the goroutine itself. -/
theorem at'_ended {tr : Trace M X V} {t : Nat} (Q : L → Prop) {i p : Nat} (hip : i ≤ p) (hl : p ≤ tr.length) (h1 : Q (at' next init tr t i))
    (h0 : ¬ Q (at' next init tr t p)) :
    ∃ q a, i ≤ q ∧ q < p ∧ tr[q]? = some (t, a) ∧ Q (at' next init tr t q) ∧ ¬ Q (next (at' next init tr t q) a) := by
  induction p with
  | zero =>
    have : i = 0 := by omega
    subst this; exact absurd h1 h0
  | succ p ih =>
    by_cases hi : i = p + 1
    · subst hi; exact absurd h1 h0
    · by_cases hq : Q (at' next init tr t p)
      · obtain ⟨u, a, e⟩ := nth (tr := tr) (k := p) (by omega)
        have s := at'_succ (next := next) (init := init) e t
        by_cases hu : u = t
        · subst hu
          rw [if_pos rfl] at s
          exact ⟨p, a, by omega, by omega, e, hq, by rwa [s] at h0⟩
        · rw [if_neg hu] at s
          rw [s] at h0
          exact absurd hq h0
      · obtain ⟨q, a, h2, h3, h4⟩ := ih (by omega) (by omega) hq
        exact ⟨q, a, h2, by omega, h4⟩
end

/-! ## Atomic writes of one location are ordered -/

theorem hb_atomic {tr : Trace M X V} {x : X} : ∀ (n i j : Nat), j - i = n → i < j → ∀ {a b : Nat × Act M X V}, tr[i]? = some a → tr[j]? = some b →
    a.2.awrites x → b.2.awrites x → hb tr i j := by
  intro n
  induction n using Nat.strongRecOn with
  | ind n ih =>
    intro i j hn hij a b hi hj ha hb'
    by_cases h : ∃ k c, i < k ∧ k < j ∧ tr[k]? = some c ∧ c.2.awrites x
    · obtain ⟨k, c, h1, h2, h3, h4⟩ := h
      exact Relation.TransGen.trans (ih (k - i) (by omega) i k rfl h1 hi h3 ha h4) (ih (j - k) (by omega) k j rfl h2 h3 hj h4 hb')
    · refine .single ⟨hij, a, b, hi, hj, .inr (.inr ⟨x, ha, ?_, fun k h1 h2 c h3 h4 => h ⟨k, c, h1, h2, h3, h4⟩⟩)⟩
      obtain ⟨o, n, e⟩ := hb'
      exact ⟨true, by rw [e]; rfl⟩

/-! ## Counters -/

/-- The sum of `d` over the actions of all goroutines. -/
def total (d : Act M X V → Int) (tr : Trace M X V) : Int := (tr.map fun e => d e.2).sum

theorem total_split (d : Act M X V → Int) (tr : Trace M X V) (t : Nat) :
    total d tr = ((proj t tr).map d).sum + total d (tr.filter fun e => !(e.1 == t)) := by
  induction tr with
  | nil => rfl
  | cons e tr ih =>
    obtain ⟨u, a⟩ := e
    simp only [total, List.map_cons, List.sum_cons, proj] at ih ⊢
    by_cases h : u = t
    · simp [h, ih]; omega
    · simp [h, ih]; omega

theorem total_nonneg (d : Act M X V → Int) : ∀ (n : Nat) (tr : Trace M X V), tr.length = n → (∀ t, 0 ≤ ((proj t tr).map d).sum) → 0 ≤ total d tr := by
  intro n
  induction n using Nat.strongRecOn with
  | ind n ih =>
    intro tr hn h
    cases tr with
    | nil => simp [total]
    | cons e tr =>
      rw [total_split d (e :: tr) e.1]
      have h1 := h e.1
      have h2 := ih ((e :: tr).filter fun c => !(c.1 == e.1)).length (by
        subst hn
        simp only [List.filter_cons, beq_self_eq_true, Bool.not_true, Bool.false_eq_true, if_false, List.length_cons]
        have := List.length_filter_le (fun c : Nat × Act M X V => !(c.1 == e.1)) tr
        omega) _ rfl (by
          intro t
          by_cases ht : t = e.1
          · subst ht
            have : proj e.1 ((e :: tr).filter fun c => !(c.1 == e.1)) = [] := by
              unfold proj
              rw [List.filter_filter]
              simp
            rw [this]; simp
          · have : proj t ((e :: tr).filter fun c => !(c.1 == e.1)) = proj t (e :: tr) := by
              unfold proj
              rw [List.filter_filter]
              congr 1
              apply List.filter_congr
              intro c _
              by_cases hc : c.1 = t <;> simp [hc, ht]
            rw [this]; exact h t)
      omega

/-- A counter that no goroutine makes negative is at least what one goroutine contributes. -/
theorem le_total (d : Act M X V → Int) (tr : Trace M X V) (h : ∀ t, 0 ≤ ((proj t tr).map d).sum) (t : Nat) : ((proj t tr).map d).sum ≤ total d tr := by
  rw [total_split d tr t]
  have := total_nonneg d _ (tr.filter fun e => !(e.1 == t)) rfl (by
    intro u
    by_cases hu : u = t
    · subst hu
      have : proj u (tr.filter fun c => !(c.1 == u)) = [] := by
        unfold proj
        rw [List.filter_filter]
        simp
      rw [this]; simp
    · have : proj u (tr.filter fun c => !(c.1 == t)) = proj u tr := by
        unfold proj
        rw [List.filter_filter]
        congr 1
        apply List.filter_congr
        intro c _
        by_cases hc : c.1 = u <;> simp [hc, hu]
      rw [this]; exact h u)
  omega

theorem total_take_succ (d : Act M X V → Int) {tr : Trace M X V} {k t : Nat} {a : Act M X V} (h : tr[k]? = some (t, a)) :
    total d (tr.take (k + 1)) = total d (tr.take k) + d a := by
  rw [List.take_add_one, h]
  simp [total]

end Gofer.Race
