import Verif.Model.BloomConc
import Verif.Proof.Bloom
/-! # Lemmas for `Props/BloomConc` -/
namespace Gofer.BloomConc
open Gofer.Bloom (phase testIn)

/-! ### Generations -/

/-- The number of the generation that belongs to a count. -/
def gen (E n : Nat) : Nat :=
  3 * (n / (E * 3 + 1)) + if n % (E * 3 + 1) < E then 0 else if n % (E * 3 + 1) < E * 2 then 1 else 2

theorem phase_gen (E n : Nat) : phase n E = (gen E n % 3, (gen E n + 1) % 3, (gen E n + 2) % 3) := by
  unfold phase gen
  dsimp only
  generalize n / (E * 3 + 1) = d
  split
  · rw [Prod.mk.injEq, Prod.mk.injEq]; omega
  · split <;> (rw [Prod.mk.injEq, Prod.mk.injEq]; omega)

theorem gen_succ {E : Nat} (hE : 0 < E) (n : Nat) : gen E n ≤ gen E (n + 1) ∧ gen E (n + 1) ≤ gen E n + 1 := by
  unfold gen
  have h := Nat.div_add_mod n (E * 3 + 1)
  have hm := Nat.mod_lt n (show E * 3 + 1 > 0 by omega)
  rcases Bloom.mod_succ_cases E n with ⟨h1, h2⟩ | ⟨h1, h2⟩
  · have hd : (n + 1) / (E * 3 + 1) = n / (E * 3 + 1) := by
      rw [Nat.succ_div_of_not_dvd]
      intro hd
      have := Nat.mod_eq_zero_of_dvd hd
      omega
    rw [hd, h1]
    repeat' split
    all_goals omega
  · have hd : (n + 1) / (E * 3 + 1) = n / (E * 3 + 1) + 1 := by
      rw [Nat.succ_div_of_dvd (Nat.dvd_of_mod_eq_zero h1)]
    rw [hd, h1, h2]
    repeat' split
    all_goals omega

theorem gen_mono {E : Nat} (hE : 0 < E) {m n : Nat} (h : m ≤ n) : gen E m ≤ gen E n := by
  induction h with
  | refl => exact Nat.le_refl _
  | step _ ih => exact Nat.le_trans ih (gen_succ hE _).1

/-- `E` counts lead at most into the next generation. -/
theorem gen_within {E : Nat} (hE : 0 < E) {m n : Nat} (h : n ≤ m + E) : gen E n ≤ gen E m + 1 := by
  refine Nat.le_trans (gen_mono hE h) ?_
  unfold gen
  have h1 := Nat.div_add_mod m (E * 3 + 1)
  have hm := Nat.mod_lt m (show E * 3 + 1 > 0 by omega)
  by_cases hc : m % (E * 3 + 1) + E < E * 3 + 1
  · have e1 : (m + E) / (E * 3 + 1) = m / (E * 3 + 1) ∧ (m + E) % (E * 3 + 1) = m % (E * 3 + 1) + E := by
      rw [Nat.div_mod_unique (by omega)]
      omega
    rw [e1.1, e1.2]
    repeat' split
    all_goals omega
  · have e1 : (m + E) / (E * 3 + 1) = m / (E * 3 + 1) + 1 ∧ (m + E) % (E * 3 + 1) = m % (E * 3 + 1) + E - (E * 3 + 1) := by
      rw [Nat.div_mod_unique (by omega)]
      refine ⟨?_, by omega⟩
      rw [Nat.mul_add]
      omega
    rw [e1.1, e1.2]
    repeat' split
    all_goals omega

/-- The first count of a generation but the first. -/
def First (E n : Nat) : Prop := 0 < n ∧ gen E n = gen E (n - 1) + 1

theorem first_within {E : Nat} (hE : 0 < E) {m n : Nat} (hm : First E m) (h1 : m ≤ n) (h2 : n < m + E) : gen E n = gen E m := by
  have h := gen_mono hE h1
  have := gen_within hE (show n ≤ (m - 1) + E by have := hm.1; omega)
  have := hm.2
  omega

theorem first_eq {E : Nat} (hE : 0 < E) {m n : Nat} (hn : First E n) (h1 : m ≤ n) (h2 : gen E m = gen E n) : m = n := by
  rcases Nat.lt_or_ge m n with h | h
  · have := gen_mono hE (show m ≤ n - 1 by omega)
    have := hn.2
    omega
  · omega

/-! ### Words -/

/-- The bit of an array. -/
def has (heap : List (List UInt64)) (a q : Nat) : Prop := (wordAt heap a q &&& bit q != 0) = true

theorem has_test (heap : List (List UInt64)) (a q : Nat) : has heap a q ↔ testIn (some ((heap[a]?).getD [])) q = true := Iff.rfl

theorem has_append {heap : List (List UInt64)} {a q : Nat} (h : has heap a q) (l : List UInt64) : has (heap ++ [l]) a q := by
  unfold has wordAt at h ⊢
  rcases Nat.lt_or_ge a heap.length with hl | hl
  · rwa [List.getElem?_append_left hl]
  · rw [List.getElem?_eq_none hl] at h
    simp at h

/-- The store of a word that was loaded, with one more bit. -/
theorem has_store {heap : List (List UInt64)} {a q : Nat} {l : List UInt64} (hl : heap[a]? = some l) (hq : q < 64 * l.length) (b q' : Nat) :
    has (storeAt heap a q (wordAt heap a q ||| bit q)) b q' ↔ (b = a ∧ q' = q) ∨ has heap b q' := by
  have ha : a < heap.length := (List.getElem?_eq_some_iff.1 hl).1
  by_cases hb : b = a
  · subst hb
    rw [has_test, has_test]
    unfold storeAt wordAt bit
    rw [List.getElem?_set_self ha, hl]
    simp only [Option.getD_some]
    rw [Bloom.testIn_set l q q' hq]
    simp
  · unfold has wordAt storeAt
    rw [List.getElem?_set_ne (fun h => hb h.symm)]
    simp [hb]

/-! ### All schedules -/

theorem get_set {α : Type} {l : List α} {i j : Nat} {a b c : α} (h : l[i]? = some c) (hj : (l.set i a)[j]? = some b) :
    (j = i ∧ b = a) ∨ (j ≠ i ∧ l[j]? = some b) := by
  have hi : i < l.length := (List.getElem?_eq_some_iff.1 h).1
  by_cases e : j = i
  · subst e
    rw [List.getElem?_set_self hi] at hj
    exact .inl ⟨rfl, (Option.some.inj hj).symm⟩
  · rw [List.getElem?_set_ne (fun h => e h.symm)] at hj
    exact .inr ⟨e, hj⟩

theorem set_self {α : Type} {l : List α} {i : Nat} {a c : α} (h : l[i]? = some c) : (l.set i a)[i]? = some a :=
  List.getElem?_set_self (List.getElem?_eq_some_iff.1 h).1

theorem set_other {α : Type} {l : List α} {i j : Nat} {a : α} (h : j ≠ i) : (l.set i a)[j]? = l[j]? :=
  List.getElem?_set_ne (fun e => h e.symm)

theorem get_app {α : Type} {l : List α} {j : Nat} {a b : α} (hj : (l ++ [a])[j]? = some b) : (j = l.length ∧ b = a) ∨ l[j]? = some b := by
  rcases Nat.lt_or_ge j l.length with h | h
  · rw [List.getElem?_append_left h] at hj
    exact .inr hj
  · rw [List.getElem?_append_right h] at hj
    rcases Nat.lt_or_ge (j - l.length) 1 with h1 | h1
    · have e : j - l.length = 0 := by omega
      rw [e] at hj
      exact .inl ⟨by omega, (Option.some.inj hj).symm⟩
    · rw [List.getElem?_eq_none (by simpa using h1)] at hj
      cases hj

theorem app_get {α : Type} {l : List α} {j : Nat} {a b : α} (hj : l[j]? = some b) : (l ++ [a])[j]? = some b := by
  rw [List.getElem?_append_left (List.getElem?_eq_some_iff.1 hj).1]
  exact hj

variable {I : Type}

/-- With the mutex. -/
def Holds (c : Call I) : Prop := c.pc = .mk ∨ c.pc = .rm ∨ c.pc = .unlock

/-- The mutex, and how many arrays there are. -/
structure Basic (s : St I) : Prop where
  held : s.mu = true → ∃ (i : Nat) (c : Call I), s.log[i]? = some c ∧ Holds c
  mutex : ∀ (i : Nat) (c : Call I), s.log[i]? = some c → Holds c → s.mu = true
  one : ∀ (i j : Nat) (c d : Call I), s.log[i]? = some c → s.log[j]? = some d → Holds c → Holds d → i = j
  two : (∀ j < 3, s.bits j ≠ none) → ∃ (i : Nat) (c : Call I), s.log[i]? = some c ∧ c.pc = .rm

/-- A step of call `i` that changes neither the mutex nor `bits`, and goes from outside the mutex to outside. -/
theorem basic_local {s : St I} {i : Nat} {c c' : Call I} (h : Basic s) (hc : s.log[i]? = some c) (h1 : ¬ Holds c) (h2 : ¬ Holds c')
    (heap : List (List UInt64)) (n : Nat) : Basic { s with heap := heap, count := n, log := s.log.set i c' } := by
  have keep : ∀ (j : Nat) (d : Call I), s.log[j]? = some d → Holds d → (s.log.set i c')[j]? = some d := by
    intro j d hd hh
    rw [set_other]
    · exact hd
    · rintro rfl
      rw [hc] at hd
      cases hd
      exact h1 hh
  have back : ∀ (j : Nat) (d : Call I), (s.log.set i c')[j]? = some d → Holds d → s.log[j]? = some d := by
    intro j d hd hh
    rcases get_set hc hd with ⟨_, rfl⟩ | ⟨_, e⟩
    · exact absurd hh h2
    · exact e
  refine ⟨?_, ?_, ?_, ?_⟩
  · intro hm
    obtain ⟨j, d, e1, e2⟩ := h.held hm
    exact ⟨j, d, keep j d e1 e2, e2⟩
  · intro j d hd hh
    exact h.mutex j d (back j d hd hh) hh
  · intro j k d e hd he h3 h4
    exact h.one j k d e (back j d hd h3) (back k e he h4) h3 h4
  · intro h3
    obtain ⟨j, d, e1, e2⟩ := h.two h3
    exact ⟨j, d, keep j d e1 (.inr (.inl e2)), e2⟩

/-- A step of call `i` inside the mutex. -/
theorem basic_inside {s : St I} {i : Nat} {c c' : Call I} (h : Basic s) (hc : s.log[i]? = some c) (h1 : Holds c) (h2 : Holds c')
    (heap : List (List UInt64)) (b : Nat → Option Nat) (h3 : (∀ j < 3, b j ≠ none) → c'.pc = .rm) :
    Basic { s with heap := heap, bits := b, log := s.log.set i c' } := by
  have hm := h.mutex i c hc h1
  have only : ∀ (j : Nat) (d : Call I), (s.log.set i c')[j]? = some d → Holds d → j = i := by
    intro j d hd hh
    rcases get_set hc hd with ⟨e, _⟩ | ⟨_, e⟩
    · exact e
    · exact h.one j i d c e hc hh h1
  refine ⟨?_, ?_, ?_, ?_⟩
  · intro _
    exact ⟨i, c', set_self hc, h2⟩
  · intro _ _ _ _
    exact hm
  · intro j k d e hd he h4 h5
    rw [only j d hd h4, only k e he h5]
  · intro h4
    exact ⟨i, c', set_self hc, h3 h4⟩

theorem phase_lt (n E : Nat) : (phase n E).1 < 3 ∧ (phase n E).2.1 < 3 ∧ (phase n E).2.2 < 3 := by
  rw [phase_gen]
  refine ⟨?_, ?_, ?_⟩ <;> exact Nat.mod_lt _ (by omega)

theorem basic_act (cfg : Cfg I) {s t : St I} (h : Basic s) (a : Act I) (ha : act cfg s a = some t) : Basic t := by
  have app : ∀ c : Call I, ¬ Holds c → Basic { s with log := s.log ++ [c] } := by
    intro c hc
    have back : ∀ (j : Nat) (d : Call I), (s.log ++ [c])[j]? = some d → Holds d → s.log[j]? = some d := by
      intro j d hd hh
      rcases get_app hd with ⟨_, rfl⟩ | e
      · exact absurd hh hc
      · exact e
    refine ⟨?_, ?_, ?_, ?_⟩
    · intro hm
      obtain ⟨j, d, e1, e2⟩ := h.held hm
      exact ⟨j, d, app_get e1, e2⟩
    · intro j d hd hh
      exact h.mutex j d (back j d hd hh) hh
    · intro j k d e hd he h3 h4
      exact h.one j k d e (back j d hd h3) (back k e he h4) h3 h4
    · intro h3
      obtain ⟨j, d, e1, e2⟩ := h.two h3
      exact ⟨j, d, app_get e1, e2⟩
  cases a with
  | add x => cases ha; exact app _ (by simp [Holds])
  | contains x => cases ha; exact app _ (by simp [Holds])
  | step i =>
    simp only [act] at ha
    cases hc : s.log[i]? with
    | none => rw [hc] at ha; cases ha
    | some c =>
      rw [hc] at ha
      simp only [Option.bind_some] at ha
      cases hpc : c.pc <;> simp only [step, hpc] at ha
      case inc => cases ha; exact basic_local h hc (by simp [Holds, hpc]) (by simp [Holds]) _ _
      case next =>
        split at ha
        · cases ha; exact basic_local h hc (by simp [Holds, hpc]) (by simp [Holds]) _ _
        · split at ha <;> (cases ha; exact basic_local h hc (by simp [Holds, hpc]) (by simp [Holds]) _ _)
      case chk =>
        cases ha
        refine basic_local h hc (by simp [Holds, hpc]) ?_ _ _
        simp only [Holds]
        split <;> simp
      case lock =>
        split at ha
        · cases ha
        · rename_i hm
          cases ha
          have none_ : ∀ (j : Nat) (d : Call I), s.log[j]? = some d → ¬ Holds d := fun j d hd hh => hm (h.mutex j d hd hh)
          have only : ∀ (j : Nat) (d : Call I), (s.log.set i { c with pc := .mk })[j]? = some d → Holds d → j = i := by
            intro j d hd hh
            rcases get_set hc hd with ⟨e, _⟩ | ⟨_, e⟩
            · exact e
            · exact absurd hh (none_ j d e)
          refine ⟨fun _ => ⟨i, _, set_self hc, .inl rfl⟩, fun _ _ _ _ => rfl, ?_, ?_⟩
          · intro j k d e hd he h4 h5
            rw [only j d hd h4, only k e he h5]
          · intro h3
            obtain ⟨j, d, e1, e2⟩ := h.two h3
            exact absurd (.inr (.inl e2)) (none_ j d e1)
      case mk =>
        split at ha <;> (cases ha; exact basic_inside h hc (.inl hpc) (.inr (.inl rfl)) _ _ (fun _ => rfl))
      case rm =>
        cases ha
        refine basic_inside h hc (.inr (.inl hpc)) (.inr (.inr rfl)) _ _ ?_
        intro h3
        have := h3 (phase c.n cfg.E).2.1 (phase_lt c.n cfg.E).2.1
        simp [setBits] at this
      case unlock =>
        cases ha
        have hh : Holds c := .inr (.inr hpc)
        have none_ : ∀ (j : Nat) (d : Call I), (s.log.set i { c with pc := .slice })[j]? = some d → ¬ Holds d := by
          intro j d hd hh'
          rcases get_set hc hd with ⟨_, rfl⟩ | ⟨e1, e⟩
          · simp [Holds] at hh'
          · exact e1 (h.one j i d c e hc hh' hh)
        refine ⟨fun e => Bool.noConfusion e, fun j d hd hh' => absurd hh' (none_ j d hd), fun j k d e hd _ h4 _ => absurd h4 (none_ j d hd), ?_⟩
        intro h3
        obtain ⟨j, d, e1, e2⟩ := h.two h3
        have e := h.one j i d c e1 hc (.inr (.inl e2)) hh
        subst e
        rw [hc] at e1
        cases e1
        rw [hpc] at e2
        cases e2
      case slice => split at ha <;> (cases ha; exact basic_local h hc (by simp [Holds, hpc]) (by simp [Holds]) _ _)
      case word =>
        split at ha
        · cases ha; exact basic_local h hc (by simp [Holds, hpc]) (by simp [Holds]) _ _
        · split at ha <;> (cases ha; exact basic_local h hc (by simp [Holds, hpc]) (by simp [Holds]) _ _)
      case store => cases ha; exact basic_local h hc (by simp [Holds, hpc]) (by simp [Holds]) _ _
      case slice2 => split at ha <;> (cases ha; exact basic_local h hc (by simp [Holds, hpc]) (by simp [Holds]) _ _)
      case word2 => split at ha <;> (cases ha; exact basic_local h hc (by simp [Holds, hpc]) (by simp [Holds]) _ _)
      case ret => cases ha

theorem basic_new (cfg : Cfg I) : Basic (new cfg) := by
  refine ⟨by simp [new], by simp [new], by simp [new], ?_⟩
  intro h
  have h0 := h 0 (by omega)
  have h1 := h 1 (by omega)
  simp only [new, ne_eq] at h0 h1
  by_cases e : 0 = (phase 0 cfg.E).1
  · rw [← e, if_neg (by omega)] at h1
    exact absurd rfl h1
  · rw [if_neg e] at h0
    exact absurd rfl h0

theorem exec_inv {P : St I → Prop} (cfg : Cfg I) (hP : ∀ s t a, P s → act cfg s a = some t → P t) :
    ∀ (as : List (Act I)) (s t : St I), P s → exec cfg s as = some t → P t := by
  intro as
  induction as with
  | nil => intro s t h he; cases he; exact h
  | cons a as ih =>
    intro s t h he
    simp only [exec] at he
    cases ha : act cfg s a with
    | none => rw [ha] at he; cases he
    | some u =>
      rw [ha] at he
      exact ih u t (hP s u a h ha) he

/-! ### Steps left -/

/-- Steps within a round of the loop. -/
def Pc.left : Pc → Nat
  | .inc => 12
  | .next => 11
  | .chk => 10
  | .lock => 9
  | .mk => 8
  | .rm => 7
  | .unlock => 6
  | .slice => 5
  | .word => 4
  | .store => 3
  | .slice2 => 3
  | .word2 => 2
  | .ret => 0

/-- An upper bound for the steps that a call still takes. -/
def left (cfg : Cfg I) (c : Call I) : Nat := 11 * (cfg.k - c.i) + c.pc.left

/-- The loop counter within the loop. -/
def Round (cfg : Cfg I) (c : Call I) : Prop := c.pc = .inc ∨ c.pc = .next ∨ c.pc = .ret ∨ c.i < cfg.k

theorem step_left (cfg : Cfg I) {s t : St I} {i : Nat} {c : Call I} (hr : Round cfg c) (h : step cfg s i c = some t) :
    ∃ c', t.log = s.log.set i c' ∧ left cfg c' < left cfg c ∧ Round cfg c' ∧ c'.add = c.add ∧ c'.item = c.item := by
  have pick : ∀ c' : Call I, t.log = s.log.set i c' → left cfg c' < left cfg c → Round cfg c' → c'.add = c.add → c'.item = c.item →
      ∃ c', t.log = s.log.set i c' ∧ left cfg c' < left cfg c ∧ Round cfg c' ∧ c'.add = c.add ∧ c'.item = c.item :=
    fun c' a b d e f => ⟨c', a, b, d, e, f⟩
  cases hpc : c.pc <;> simp only [step, hpc] at h <;> simp only [Round, hpc, reduceCtorEq, false_or, or_true, true_or] at hr
  case inc => cases h; exact pick _ rfl (by simp [left, Pc.left, hpc]) (by simp [Round]) rfl rfl
  case next =>
    split at h
    · cases h; exact pick _ rfl (by simp [left, Pc.left, hpc]) (by simp [Round]) rfl rfl
    · split at h
      · cases h; exact pick _ rfl (by simp [left, Pc.left, hpc]) (by simp [Round]) rfl rfl
      · cases h; exact pick _ rfl (by simp [left, Pc.left, hpc]) (by simp [Round]; omega) rfl rfl
  case chk =>
    cases h
    exact pick _ rfl (by simp only [left, hpc]; split <;> simp [Pc.left]) (.inr (.inr (.inr hr))) rfl rfl
  case lock =>
    split at h
    · cases h
    · cases h; exact pick _ rfl (by simp [left, Pc.left, hpc]) (.inr (.inr (.inr hr))) rfl rfl
  case mk => split at h <;> (cases h; exact pick _ rfl (by simp [left, Pc.left, hpc]) (.inr (.inr (.inr hr))) rfl rfl)
  case rm => cases h; exact pick _ rfl (by simp [left, Pc.left, hpc]) (.inr (.inr (.inr hr))) rfl rfl
  case unlock => cases h; exact pick _ rfl (by simp [left, Pc.left, hpc]) (.inr (.inr (.inr hr))) rfl rfl
  case slice => split at h <;> (cases h; exact pick _ rfl (by simp [left, Pc.left, hpc]) (.inr (.inr (.inr hr))) rfl rfl)
  case word =>
    split at h
    · cases h; exact pick _ rfl (by simp [left, Pc.left, hpc]) (.inr (.inr (.inr hr))) rfl rfl
    · split at h
      · cases h; exact pick _ rfl (by simp only [left, Pc.left, hpc]; omega) (.inr (.inl rfl)) rfl rfl
      · cases h; exact pick _ rfl (by simp [left, Pc.left, hpc]) (.inr (.inr (.inr hr))) rfl rfl
  case store => cases h; exact pick _ rfl (by simp only [left, Pc.left, hpc]; omega) (.inr (.inl rfl)) rfl rfl
  case slice2 => split at h <;> (cases h; exact pick _ rfl (by simp [left, Pc.left, hpc]) (.inr (.inr (.inr hr))) rfl rfl)
  case word2 =>
    split at h
    · cases h; exact pick _ rfl (by simp only [left, Pc.left, hpc]; omega) (.inr (.inl rfl)) rfl rfl
    · cases h; exact pick _ rfl (by simp [left, Pc.left, hpc]) (.inr (.inr (.inr hr))) rfl rfl
  case ret => cases h

/-- Only a call that wants the mutex, held by another, is blocked. -/
theorem step_blocked (cfg : Cfg I) {s : St I} {i : Nat} {c : Call I} (h : step cfg s i c = none) : c.pc = .ret ∨ (c.pc = .lock ∧ s.mu = true) := by
  cases hpc : c.pc <;> simp only [step, hpc] at h
  case lock =>
    split at h
    · exact .inr ⟨rfl, by assumption⟩
    · cases h
  case ret => exact .inl rfl
  all_goals first
    | cases h
    | (split at h <;> first | cases h | (split at h <;> cases h))

/-! ### One call of Add at a time, and no slow Contains -/

/-- Between the load of the count and the return. -/
def Loaded (p : Pc) : Prop := p ≠ .inc ∧ p ≠ .next ∧ p ≠ .ret

/-- Behind `getBitIndex`. -/
def Late (p : Pc) : Prop := p = .unlock ∨ p = .slice ∨ p = .word ∨ p = .store ∨ p = .slice2 ∨ p = .word2

/-- What is known of a call; `G` is the newest generation that has an array. -/
structure CallInv (cfg : Cfg I) (count : Nat) (bits : Nat → Option Nat) (heap : List (List UInt64)) (G : Nat) (c : Call I) : Prop where
  numle : c.num ≤ count
  zero : c.pc = .inc → c.i = 0 ∧ c.add = true
  load : Loaded c.pc → c.num ≤ c.n ∧ c.n ≤ count
  own : c.add = true → c.pc ≠ .inc → c.pc ≠ .ret → c.num = count
  done : c.add = true → c.pc ≠ .inc → (c.pc = .ret ∨ 0 < c.i) → gen cfg.E c.num ≤ G
  all : c.add = true → c.pc = .ret → cfg.k ≤ c.i
  first : c.pc = .lock ∨ c.pc = .mk ∨ c.pc = .rm → First cfg.E c.n
  rmg : c.pc = .rm → gen cfg.E c.n = G
  late : Late c.pc → gen cfg.E c.n ≤ G
  arr : c.add = true → c.pc = .word ∨ c.pc = .store → bits (gen cfg.E c.n % 3) = some c.arr
  word : c.pc = .store → c.add = true ∧ c.w = wordAt heap c.arr (cfg.pos c.i c.item)
  items : c.add = true → c.pc ≠ .inc → ∀ j < c.i, G ≤ gen cfg.E c.num + 1 →
    ∃ a, bits (gen cfg.E c.num % 3) = some a ∧ has heap a (cfg.pos j c.item)
  two : c.pc = .slice2 ∨ c.pc = .word2 → c.add = false

structure Inv (cfg : Cfg I) (s : St I) (G : Nat) : Prop where
  basic : Basic s
  len : ∀ (a : Nat) (l : List UInt64), s.heap[a]? = some l → l.length = cfg.W
  low : G ≤ gen cfg.E s.count
  high : gen cfg.E s.count ≤ G + 1
  fst : gen cfg.E s.count = G + 1 → First cfg.E s.count ∧ ∃ (i : Nat) (c : Call I), s.log[i]? = some c ∧ c.add = true ∧ c.pc ≠ .inc ∧ c.pc ≠ .ret
  cur : ∃ a, s.bits (G % 3) = some a ∧ a < s.heap.length
  prv : 0 < G → ∃ a, s.bits ((G + 2) % 3) = some a ∧ a < s.heap.length
  nxt : s.bits ((G + 1) % 3) ≠ none → ∃ (i : Nat) (c : Call I), s.log[i]? = some c ∧ c.pc = .rm
  calls : ∀ (i : Nat) (c : Call I), s.log[i]? = some c → CallInv cfg s.count s.bits s.heap G c

/-- At most one Add at a time. -/
def OneAdd (s : St I) : Prop :=
  ∀ (i j : Nat) (c d : Call I), s.log[i]? = some c → s.log[j]? = some d → c.add = true → d.add = true → c.pc ≠ .ret → d.pc ≠ .ret → i = j

/-- While a Contains runs, fewer than `E` Adds begin. -/
def Prompt (E : Nat) (s : St I) : Prop := ∀ c ∈ s.log, c.add = false → c.pc ≠ .ret → s.count < c.num + E

theorem mem_of_get {α : Type} {l : List α} {i : Nat} {a : α} (h : l[i]? = some a) : a ∈ l := List.mem_of_getElem? h

theorem near {cfg : Cfg I} (hE : 0 < cfg.E) {s : St I} {G i : Nat} {c : Call I} (h : Inv cfg s G) (hp : Prompt cfg.E s) (hc : s.log[i]? = some c)
    (hl : Loaded c.pc) : gen cfg.E c.n ≤ gen cfg.E s.count ∧ gen cfg.E s.count ≤ gen cfg.E c.n + 1 ∧
      (First cfg.E c.n → gen cfg.E s.count = gen cfg.E c.n) ∧ (c.add = true → c.n = s.count ∧ c.num = s.count) := by
  have ci := h.calls i c hc
  obtain ⟨l1, l2⟩ := ci.load hl
  have hlt : s.count < c.n + cfg.E := by
    cases ha : c.add
    · have := hp c (mem_of_get hc) ha hl.2.2
      omega
    · have := ci.own ha hl.1 hl.2.2
      omega
  refine ⟨gen_mono hE l2, gen_within hE (by omega), fun hf => first_within hE hf l2 hlt, fun ha => ?_⟩
  have := ci.own ha hl.1 hl.2.2
  omega

theorem bits_some {cfg : Cfg I} {s : St I} {G g : Nat} (h : Inv cfg s G) (hg : g = G ∨ g + 1 = G) : ∃ a, s.bits (g % 3) = some a ∧ a < s.heap.length := by
  rcases hg with rfl | hg
  · exact h.cur
  · have := h.prv (by omega)
    have e : (G + 2) % 3 = g % 3 := by omega
    rwa [e] at this

/-- A step of call `i` that changes nothing but its own fields and the mutex. -/
theorem inv_local {cfg : Cfg I} {s : St I} {G i : Nat} {c : Call I} (h : Inv cfg s G) (hc : s.log[i]? = some c) (c' : Call I) (m : Bool)
    (hb : Basic { s with mu := m, log := s.log.set i c' }) (hadd : c'.add = c.add) (hrm : c.pc ≠ .rm)
    (hp : c.add = true → c.pc ≠ .inc → c'.pc ≠ .inc ∧ (c'.pc = .ret → gen cfg.E s.count ≤ G)) (hc' : CallInv cfg s.count s.bits s.heap G c') :
    Inv cfg { s with mu := m, log := s.log.set i c' } G := by
  refine ⟨hb, h.len, h.low, h.high, ?_, h.cur, h.prv, ?_, ?_⟩
  · intro hg
    have hg' : gen cfg.E s.count = G + 1 := hg
    obtain ⟨hf, j, d, e1, e2, e3, e4⟩ := h.fst hg
    refine ⟨hf, ?_⟩
    by_cases hj : j = i
    · subst hj
      rw [hc] at e1
      cases e1
      refine ⟨j, c', set_self hc, by rw [hadd]; exact e2, (hp e2 e3).1, fun hr => ?_⟩
      have := (hp e2 e3).2 hr
      omega
    · exact ⟨j, d, by rw [← e1]; exact set_other hj, e2, e3, e4⟩
  · intro hn
    obtain ⟨j, d, e1, e2⟩ := h.nxt hn
    refine ⟨j, d, ?_, e2⟩
    rw [← e1]
    refine set_other ?_
    rintro rfl
    rw [hc] at e1
    cases e1
    exact hrm e2
  · intro j d hd
    rcases get_set hc hd with ⟨_, rfl⟩ | ⟨_, e⟩
    · exact hc'
    · exact h.calls j d e

theorem inv_start {cfg : Cfg I} {s : St I} {G : Nat} (h : Inv cfg s G) (c : Call I) (hb : Basic { s with log := s.log ++ [c] })
    (hi : c.i = 0) (hn : c.num = s.count) (hp : (c.add = true ∧ c.pc = .inc) ∨ (c.add = false ∧ c.pc = .next)) :
    Inv cfg { s with log := s.log ++ [c] } G := by
  refine ⟨hb, h.len, h.low, h.high, ?_, h.cur, h.prv, ?_, ?_⟩
  · intro hg
    obtain ⟨hf, j, d, e1, e2⟩ := h.fst hg
    exact ⟨hf, j, d, app_get e1, e2⟩
  · intro hn
    obtain ⟨j, d, e1, e2⟩ := h.nxt hn
    exact ⟨j, d, app_get e1, e2⟩
  · intro j d hd
    rcases get_app hd with ⟨_, rfl⟩ | e
    · rcases hp with ⟨p1, p2⟩ | ⟨p1, p2⟩ <;>
        constructor <;> simp [p1, p2, hn, hi, Loaded, Late]
    · exact h.calls j d e

section steps
variable {cfg : Cfg I} {s : St I} {G i : Nat} {c : Call I}

theorem inv_inc (hE : 0 < cfg.E) (h : Inv cfg s G) (ho : OneAdd s) (hc : s.log[i]? = some c) (hpc : c.pc = .inc) (ha : c.add = true)
    (hb : Basic (St.put { s with count := s.count + 1 } i { c with num := s.count + 1, pc := .next })) :
    Inv cfg (St.put { s with count := s.count + 1 } i { c with num := s.count + 1, pc := .next }) G := by
  have hg : gen cfg.E s.count = G := by
    rcases Nat.lt_or_ge G (gen cfg.E s.count) with hlt | hge
    · obtain ⟨_, j, d, e1, e2, e3, e4⟩ := h.fst (by have := h.high; omega)
      have := ho i j c d hc e1 ha e2 (by rw [hpc]; decide) e4
      subst this
      rw [hc] at e1
      cases e1
      exact absurd hpc e3
    · have := h.low
      omega
  obtain ⟨g1, g2⟩ := gen_succ hE s.count
  have hz := ((h.calls i c hc).zero hpc).1
  refine ⟨hb, h.len, by show G ≤ gen cfg.E (s.count + 1); omega, by show gen cfg.E (s.count + 1) ≤ G + 1; omega, ?_, h.cur, h.prv, ?_, ?_⟩
  · intro hn
    have hn' : gen cfg.E (s.count + 1) = G + 1 := hn
    refine ⟨⟨by show 0 < s.count + 1; omega, ?_⟩, i, _, set_self hc, ha, by simp, by simp⟩
    show gen cfg.E (s.count + 1) = gen cfg.E s.count + 1
    omega
  · intro hn
    obtain ⟨j, d, e1, e2⟩ := h.nxt hn
    refine ⟨j, d, ?_, e2⟩
    rw [← e1]
    refine set_other ?_
    rintro rfl
    rw [hc] at e1
    cases e1
    rw [hpc] at e2
    cases e2
  · intro j d hd
    rcases get_set hc hd with ⟨_, rfl⟩ | ⟨e0, e⟩
    · constructor <;> simp [Loaded, Late, hz, St.put]
    · have ci := h.calls j d e
      refine ⟨Nat.le_succ_of_le ci.numle, ci.zero, fun hl => ⟨(ci.load hl).1, Nat.le_succ_of_le (ci.load hl).2⟩, ?_, ci.done, ci.all, ci.first, ci.rmg, ci.late,
        ci.arr, ci.word, ci.items, ci.two⟩
      intro p1 _ p3
      exact absurd (ho j i d c e hc p1 ha p3 (by rw [hpc]; decide)) e0

theorem seg_of_first (hE : 0 < cfg.E) (h : Inv cfg s G) (hp : Prompt cfg.E s) (hc : s.log[i]? = some c) (hl : Loaded c.pc)
    (hn : s.bits (gen cfg.E c.n % 3) = none) : gen cfg.E c.n = G + 1 ∧ c.n = s.count ∧ First cfg.E s.count := by
  obtain ⟨n1, n2, _, _⟩ := near hE h hp hc hl
  have hlow := h.low
  have hhigh := h.high
  have hne : ¬ (gen cfg.E c.n = G ∨ gen cfg.E c.n + 1 = G) := by
    intro e
    obtain ⟨a, ha, _⟩ := bits_some h e
    rw [hn] at ha
    cases ha
  have e1 : gen cfg.E c.n = G + 1 := by omega
  have hf := (h.fst (by omega)).1
  exact ⟨e1, first_eq hE hf ((h.calls i c hc).load hl).2 (by omega), hf⟩

/-- An array that is there belongs to a generation that has begun. -/
theorem seg_of_some (hE : 0 < cfg.E) (h : Inv cfg s G) (hp : Prompt cfg.E s) (hc : s.log[i]? = some c) (hl : Loaded c.pc)
    (hn : s.bits (gen cfg.E c.n % 3) ≠ none) : gen cfg.E c.n ≤ G := by
  obtain ⟨n1, _, _, _⟩ := near hE h hp hc hl
  have hhigh := h.high
  rcases Nat.lt_or_ge G (gen cfg.E c.n) with hlt | hge
  · have e : gen cfg.E c.n = G + 1 := by omega
    rw [e] at hn
    obtain ⟨j, d, e1, e2⟩ := h.nxt hn
    have ci := h.calls j d e1
    have := (near hE h hp e1 (by simp [Loaded, e2])).2.2.1 (ci.first (.inr (.inr e2)))
    have := ci.rmg e2
    omega
  · exact hge

theorem inv_mk_new (hE : 0 < cfg.E) (h : Inv cfg s G) (hp : Prompt cfg.E s) (hc : s.log[i]? = some c) (hpc : c.pc = .mk)
    (hn : s.bits (gen cfg.E c.n % 3) = none)
    (hb : Basic (St.put { s with heap := s.heap ++ [List.replicate cfg.W 0], bits := setBits s.bits (gen cfg.E c.n % 3) (some s.heap.length) } i { c with pc := .rm })) :
    Inv cfg (St.put { s with heap := s.heap ++ [List.replicate cfg.W 0], bits := setBits s.bits (gen cfg.E c.n % 3) (some s.heap.length) } i { c with pc := .rm }) (G + 1) := by
  have hl : Loaded c.pc := by simp [Loaded, hpc]
  obtain ⟨e1, e2, e3⟩ := seg_of_first hE h hp hc hl hn
  have hcount : gen cfg.E s.count = G + 1 := by rw [← e2]; exact e1
  rw [e1] at hb ⊢
  have keep : ∀ g : Nat, g = G ∨ g + 1 = G → ∀ a, s.bits (g % 3) = some a → setBits s.bits ((G + 1) % 3) (some s.heap.length) (g % 3) = some a := by
    intro g hg a ha
    unfold setBits
    rw [if_neg (by omega)]
    exact ha
  refine ⟨hb, ?_, ?_, ?_, ?_, ?_, ?_, ?_, ?_⟩
  · intro a l hal
    rcases get_app hal with ⟨_, rfl⟩ | hal
    · exact List.length_replicate
    · exact h.len a l hal
  · show G + 1 ≤ gen cfg.E s.count
    omega
  · show gen cfg.E s.count ≤ G + 1 + 1
    omega
  · intro hg
    have hg' : gen cfg.E s.count = G + 1 + 1 := hg
    omega
  · refine ⟨s.heap.length, ?_, ?_⟩
    · show setBits s.bits ((G + 1) % 3) (some s.heap.length) ((G + 1) % 3) = _
      simp [setBits]
    · show s.heap.length < (s.heap ++ [_]).length
      simp
  · intro _
    obtain ⟨a, ha, hlen⟩ := h.cur
    refine ⟨a, ?_, ?_⟩
    · have e : (G + 1 + 2) % 3 = G % 3 := by omega
      rw [e]
      exact keep G (.inl rfl) a ha
    · show a < (s.heap ++ [_]).length
      simp
      omega
  · intro _
    exact ⟨i, _, set_self hc, rfl⟩
  · intro j d hd
    have old : ∀ (d : Call I), CallInv cfg s.count s.bits s.heap G d → d.pc ≠ .rm → (d.add = true → d.pc ≠ .word ∧ d.pc ≠ .store) →
        CallInv cfg s.count (setBits s.bits ((G + 1) % 3) (some s.heap.length)) (s.heap ++ [List.replicate cfg.W 0]) (G + 1) d := by
      intro d ci hrm hws
      refine ⟨ci.numle, ci.zero, ci.load, ci.own, fun p1 p2 p3 => Nat.le_succ_of_le (ci.done p1 p2 p3), ci.all, ci.first, fun p => absurd p hrm,
        fun p => Nat.le_succ_of_le (ci.late p), ?_, ?_, ?_, ci.two⟩
      · intro p1 p2
        rcases p2 with p2 | p2
        · exact absurd p2 (hws p1).1
        · exact absurd p2 (hws p1).2
      · intro p
        exact absurd p (hws (ci.word p).1).2
      · intro p1 p2 j' hj hG
        obtain ⟨a, ha, hh⟩ := ci.items p1 p2 j' hj (by omega)
        have := ci.done p1 p2 (.inr (by omega))
        exact ⟨a, keep _ (by omega) a ha, has_append hh _⟩
    rcases get_set hc hd with ⟨_, rfl⟩ | ⟨e0, e⟩
    · have ci := old c (h.calls i c hc) (by rw [hpc]; decide) (fun _ => by rw [hpc]; decide)
      refine ⟨ci.numle, by simp, fun _ => ci.load hl, fun p _ _ => ci.own p hl.1 hl.2.2, ?_, by simp, fun _ => ci.first (.inr (.inl hpc)), fun _ => e1, by simp [Late],
        by simp, by simp, fun p _ => ci.items p hl.1, by simp⟩
      intro p1 _ p3
      exact ci.done p1 hl.1 (.inr (by simpa using p3))
    · have ci := h.calls j d e
      have hrm : d.pc ≠ .rm := fun p => e0 (h.basic.one j i d c e hc (.inr (.inl p)) (.inl hpc))
      refine old d ci hrm ?_
      intro p1
      -- an Add with its array is in the newest generation, which then has begun
      have key : Late d.pc → Loaded d.pc → False := by
        intro p2 p3
        have := (near hE h hp e p3).2.2.2 p1
        have h4 := ci.late p2
        rw [this.1] at h4
        omega
      exact ⟨fun p => key (by simp [Late, p]) (by simp [Loaded, p]), fun p => key (by simp [Late, p]) (by simp [Loaded, p])⟩

theorem inv_rm (h : Inv cfg s G) (hc : s.log[i]? = some c) (hpc : c.pc = .rm)
    (hb : Basic (St.put { s with bits := setBits s.bits ((gen cfg.E c.n + 1) % 3) none } i { c with pc := .unlock })) :
    Inv cfg (St.put { s with bits := setBits s.bits ((gen cfg.E c.n + 1) % 3) none } i { c with pc := .unlock }) G := by
  have cc := h.calls i c hc
  have e1 := cc.rmg hpc
  have hl : Loaded c.pc := by simp [Loaded, hpc]
  rw [e1] at hb ⊢
  have keep : ∀ g : Nat, g = G ∨ g + 1 = G → ∀ a, s.bits (g % 3) = some a → setBits s.bits ((G + 1) % 3) none (g % 3) = some a := by
    intro g hg a ha
    unfold setBits
    rw [if_neg (by omega)]
    exact ha
  refine ⟨hb, h.len, h.low, h.high, ?_, ?_, ?_, ?_, ?_⟩
  · intro hg
    obtain ⟨hf, j, d, p1, p2, p3, p4⟩ := h.fst hg
    refine ⟨hf, ?_⟩
    by_cases hj : j = i
    · subst hj
      rw [hc] at p1
      cases p1
      exact ⟨j, _, set_self hc, p2, by simp, by simp⟩
    · exact ⟨j, d, by rw [← p1]; exact set_other hj, p2, p3, p4⟩
  · obtain ⟨a, ha, hlen⟩ := h.cur
    exact ⟨a, keep G (.inl rfl) a ha, hlen⟩
  · intro hG
    obtain ⟨a, ha, hlen⟩ := h.prv hG
    refine ⟨a, ?_, hlen⟩
    have e : (G + 2) % 3 = (G - 1) % 3 := by omega
    rw [e] at ha ⊢
    exact keep (G - 1) (.inr (by omega)) a ha
  · intro hn
    exact absurd (show setBits s.bits ((G + 1) % 3) none ((G + 1) % 3) = none by simp [setBits]) hn
  · intro j d hd
    have old : ∀ (d : Call I), CallInv cfg s.count s.bits s.heap G d → d.pc ≠ .rm → (d.add = true → d.pc = .word ∨ d.pc = .store → gen cfg.E d.n = G) →
        CallInv cfg s.count (setBits s.bits ((G + 1) % 3) none) s.heap G d := by
      intro d ci hrm hws
      refine ⟨ci.numle, ci.zero, ci.load, ci.own, ci.done, ci.all, ci.first, ci.rmg, ci.late, ?_, ci.word, ?_, ci.two⟩
      · intro p1 p2
        exact keep _ (.inl (hws p1 p2)) _ (ci.arr p1 p2)
      · intro p1 p2 j' hj hG
        obtain ⟨a, ha, hh⟩ := ci.items p1 p2 j' hj hG
        have := ci.done p1 p2 (.inr (by omega))
        exact ⟨a, keep _ (by omega) a ha, hh⟩
    rcases get_set hc hd with ⟨_, rfl⟩ | ⟨e0, e⟩
    · refine ⟨cc.numle, by simp, fun _ => cc.load hl, fun p _ _ => cc.own p hl.1 hl.2.2, ?_, by simp, by simp, by simp, fun _ => by rw [e1], by simp, by simp, ?_, by simp⟩
      · intro p1 _ p3
        exact cc.done p1 hl.1 (.inr (by simpa using p3))
      · intro p1 _ j' hj hG
        obtain ⟨a, ha, hh⟩ := cc.items p1 hl.1 j' hj hG
        have := cc.done p1 hl.1 (.inr (by show 0 < c.i; have : j' < c.i := hj; omega))
        exact ⟨a, keep _ (show gen cfg.E c.num = G ∨ gen cfg.E c.num + 1 = G by have hG' : G ≤ gen cfg.E c.num + 1 := hG; omega) a ha, hh⟩
    · have ci := h.calls j d e
      have hrm : d.pc ≠ .rm := fun p => e0 (h.basic.one j i d c e hc (.inr (.inl p)) (.inr (.inl hpc)))
      refine old d ci hrm ?_
      intro p1 p2
      have p3 : Loaded d.pc := by rcases p2 with p | p <;> simp [Loaded, p]
      have p4 : Late d.pc := by rcases p2 with p | p <;> simp [Late, p]
      have q1 := ci.own p1 p3.1 p3.2.2
      have q2 := ci.load p3
      have q3 := ci.late p4
      have q4 := h.low
      have : d.n = s.count := by omega
      rw [this] at q3 ⊢
      omega

theorem inv_store (hE : 0 < cfg.E) (hpos : ∀ i x, cfg.pos i x < 64 * cfg.W) (h : Inv cfg s G) (ho : OneAdd s) (hp : Prompt cfg.E s) (hc : s.log[i]? = some c) (hpc : c.pc = .store)
    (hb : Basic (St.put { s with heap := storeAt s.heap c.arr (cfg.pos c.i c.item) (c.w ||| bit (cfg.pos c.i c.item)) } i { c with i := c.i + 1, pc := .next })) :
    Inv cfg (St.put { s with heap := storeAt s.heap c.arr (cfg.pos c.i c.item) (c.w ||| bit (cfg.pos c.i c.item)) } i { c with i := c.i + 1, pc := .next }) G := by
  have cc := h.calls i c hc
  have hl : Loaded c.pc := by simp [Loaded, hpc]
  obtain ⟨hadd, hw⟩ := cc.word hpc
  obtain ⟨hn, hnum⟩ := (near hE h hp hc hl).2.2.2 hadd
  have harr := cc.arr hadd (.inr hpc)
  have hlate := cc.late (by simp [Late, hpc])
  have hG : gen cfg.E s.count = G := by
    have := h.low
    rw [hn] at hlate
    omega
  have hnG : gen cfg.E c.n = G := by rw [hn]; exact hG
  obtain ⟨a, ha, hlen⟩ := h.cur
  have hca : c.arr = a := by
    rw [hnG, ha] at harr
    exact (Option.some.inj harr).symm
  have hget : s.heap[c.arr]? = some s.heap[c.arr] := List.getElem?_eq_getElem (by omega)
  have hq : cfg.pos c.i c.item < 64 * s.heap[c.arr].length := by
    rw [h.len _ _ hget]
    exact hpos _ _
  rw [hw] at hb ⊢
  have hs := fun b q' => has_store hget hq b q'
  have hlen2 : (storeAt s.heap c.arr (cfg.pos c.i c.item) (wordAt s.heap c.arr (cfg.pos c.i c.item) ||| bit (cfg.pos c.i c.item))).length = s.heap.length := by
    simp [storeAt]
  refine ⟨hb, ?_, h.low, h.high, ?_, ?_, ?_, ?_, ?_⟩
  · intro b l hbl
    simp only [St.put, storeAt] at hbl
    rcases get_set hget hbl with ⟨_, rfl⟩ | ⟨_, e⟩
    · rw [hget]
      simp only [Option.getD_some, List.length_set]
      exact h.len _ _ hget
    · exact h.len b l e
  · intro hg
    have hg' : gen cfg.E s.count = G + 1 := hg
    omega
  · exact ⟨a, ha, by show a < List.length (storeAt _ _ _ _); rw [hlen2]; exact hlen⟩
  · intro h0
    obtain ⟨b, hb1, hb2⟩ := h.prv h0
    exact ⟨b, hb1, by show b < List.length (storeAt _ _ _ _); rw [hlen2]; exact hb2⟩
  · intro hx
    obtain ⟨j, d, e1, e2⟩ := h.nxt hx
    refine ⟨j, d, ?_, e2⟩
    rw [← e1]
    refine set_other ?_
    rintro rfl
    rw [hc] at e1
    cases e1
    rw [hpc] at e2
    cases e2
  · intro j d hd
    rcases get_set hc hd with ⟨_, rfl⟩ | ⟨e0, e⟩
    · refine ⟨cc.numle, by simp, by simp [Loaded], fun _ _ _ => hnum, ?_, by simp, by simp, by simp, by simp [Late], by simp, by simp, ?_, by simp⟩
      · intro _ _ _
        show gen cfg.E c.num ≤ G
        rw [hnum]
        omega
      · intro _ _ j' hj hGn
        have hj' : j' < c.i + 1 := hj
        show ∃ a, s.bits (gen cfg.E c.num % 3) = some a ∧ has _ a (cfg.pos j' c.item)
        rw [hnum, hG]
        rcases Nat.lt_or_ge j' c.i with hlt | hge
        · obtain ⟨b, hb1, hb2⟩ := cc.items hadd hl.1 j' hlt hGn
          rw [hnum, hG] at hb1
          exact ⟨b, hb1, (hs b _).2 (.inr hb2)⟩
        · have : j' = c.i := by omega
          subst this
          exact ⟨a, ha, (hs a _).2 (.inl ⟨hca.symm, rfl⟩)⟩
    · have ci := h.calls j d e
      refine ⟨ci.numle, ci.zero, ci.load, ci.own, ci.done, ci.all, ci.first, ci.rmg, ci.late, ci.arr, ?_, ?_, ci.two⟩
      · intro p
        have := (ci.word p).1
        exact absurd (ho j i d c e hc this hadd (by rw [p]; decide) hl.2.2) e0
      · intro p1 p2 j' hj hGn
        obtain ⟨b, hb1, hb2⟩ := ci.items p1 p2 j' hj hGn
        exact ⟨b, hb1, (hs b _).2 (.inr hb2)⟩

theorem ci_move {bits : Nat → Option Nat} {heap : List (List UInt64)} {count : Nat} (ci : CallInv cfg count bits heap G c) (hl : Loaded c.pc) (p : Pc) (arr : Nat) (w : UInt64)
    (hp : Loaded p) (h1 : p = .lock ∨ p = .mk ∨ p = .rm → First cfg.E c.n) (h2 : p = .rm → gen cfg.E c.n = G) (h3 : Late p → gen cfg.E c.n ≤ G)
    (h4 : c.add = true → p = .word ∨ p = .store → bits (gen cfg.E c.n % 3) = some arr)
    (h5 : p = .store → c.add = true ∧ w = wordAt heap arr (cfg.pos c.i c.item)) (h6 : p = .slice2 ∨ p = .word2 → c.add = false) :
    CallInv cfg count bits heap G { c with pc := p, arr := arr, w := w } :=
  ⟨ci.numle, fun e => absurd e hp.1, fun _ => ci.load hl, fun a _ _ => ci.own a hl.1 hl.2.2,
    fun a _ b => ci.done a hl.1 (b.elim (fun e => absurd e hp.2.2) .inr), fun _ e => absurd e hp.2.2, h1, h2, h3, h4, h5, fun a _ => ci.items a hl.1, h6⟩

/-- Contains goes on or ends. -/
theorem ci_contains {bits : Nat → Option Nat} {heap : List (List UInt64)} {count : Nat} (ci : CallInv cfg count bits heap G c) (ha : c.add = false) (p : Pc) (r : Bool) (k : Nat)
    (hp : p = .next ∨ p = .ret) : CallInv cfg count bits heap G { c with i := k, pc := p, res := r } := by
  rcases hp with rfl | rfl <;> constructor <;> simp [ha, Loaded, Late, ci.numle]

theorem inv_act (hk : 0 < cfg.k) (hW : 0 < cfg.W) (hE : 0 < cfg.E) (hpos : ∀ i x, cfg.pos i x < 64 * cfg.W) {t : St I} (h : Inv cfg s G) (ho : OneAdd s)
    (hp : Prompt cfg.E s) (a : Act I) (hact : act cfg s a = some t) : ∃ G', Inv cfg t G' := by
  have hb := basic_act cfg h.basic a hact
  cases a with
  | add x => cases hact; exact ⟨G, inv_start h _ hb rfl rfl (.inl ⟨rfl, rfl⟩)⟩
  | contains x => cases hact; exact ⟨G, inv_start h _ hb rfl rfl (.inr ⟨rfl, rfl⟩)⟩
  | step i =>
    simp only [act] at hact
    cases hc : s.log[i]? with
    | none => rw [hc] at hact; cases hact
    | some c =>
      rw [hc] at hact
      simp only [Option.bind_some] at hact
      have cc := h.calls i c hc
      have ph : (phase c.n cfg.E).1 = gen cfg.E c.n % 3 := by rw [phase_gen]
      have ph2 : (phase c.n cfg.E).2.1 = (gen cfg.E c.n + 1) % 3 := by rw [phase_gen]
      have loc := fun c' m hb ha hr hp hc' => (⟨G, inv_local h hc c' m hb ha hr hp hc'⟩ : ∃ G', Inv cfg { s with mu := m, log := s.log.set i c' } G')
      cases hpc : c.pc <;> simp only [step, hpc] at hact
      case inc => cases hact; exact ⟨G, inv_inc hE h ho hc hpc (cc.zero hpc).2 hb⟩
      case next =>
        split at hact
        · rename_i hki
          cases hact
          have hd : c.add = true → gen cfg.E c.num ≤ G := fun a => cc.done a (by rw [hpc]; decide) (.inr (by omega))
          refine loc _ s.mu hb rfl (by rw [hpc]; decide) ?_ ?_
          · intro a b
            refine ⟨by simp, fun _ => ?_⟩
            rw [← cc.own a b (by rw [hpc]; decide)]
            exact hd a
          · exact ⟨cc.numle, by simp, by simp [Loaded], by simp, fun a _ _ => hd a, fun _ _ => hki, by simp, by simp, by simp [Late], by simp, by simp,
              fun a _ => cc.items a (by rw [hpc]; decide), by simp⟩
        · split at hact
          · omega
          · cases hact
            refine loc _ s.mu hb rfl (by rw [hpc]; decide) (fun _ _ => ⟨by simp, by simp⟩) ?_
            exact ⟨cc.numle, by simp, fun _ => ⟨cc.numle, Nat.le_refl _⟩, fun a _ _ => cc.own a (by rw [hpc]; decide) (by rw [hpc]; decide),
              fun a _ b => cc.done a (by rw [hpc]; decide) (.inr (by simpa using b)), by simp, by simp, by simp, by simp [Late], by simp, by simp,
              fun a _ => cc.items a (by rw [hpc]; decide), by simp⟩
      case chk =>
        have hl : Loaded c.pc := by simp [Loaded, hpc]
        rw [ph] at hact
        cases hact
        by_cases hn : s.bits (gen cfg.E c.n % 3) = none
        · rw [if_pos hn] at hb ⊢
          obtain ⟨_, e2, e3⟩ := seg_of_first hE h hp hc hl hn
          exact loc _ s.mu hb rfl (by rw [hpc]; decide) (fun _ _ => ⟨by simp, by simp⟩)
            (ci_move cc hl .lock c.arr c.w (by simp [Loaded]) (fun _ => by rw [e2]; exact e3) (by simp) (by simp [Late]) (by simp) (by simp) (by simp))
        · rw [if_neg hn] at hb ⊢
          have e := seg_of_some hE h hp hc hl hn
          exact loc _ s.mu hb rfl (by rw [hpc]; decide) (fun _ _ => ⟨by simp, by simp⟩)
            (ci_move cc hl .slice c.arr c.w (by simp [Loaded]) (by simp) (by simp) (fun _ => e) (by simp) (by simp) (by simp))
      case lock =>
        have hl : Loaded c.pc := by simp [Loaded, hpc]
        split at hact
        · cases hact
        · cases hact
          exact loc _ true hb rfl (by rw [hpc]; decide) (fun _ _ => ⟨by simp, by simp⟩)
            (ci_move cc hl .mk c.arr c.w (by simp [Loaded]) (fun _ => cc.first (.inl hpc)) (by simp) (by simp [Late]) (by simp) (by simp) (by simp))
      case mk =>
        have hl : Loaded c.pc := by simp [Loaded, hpc]
        rw [ph] at hact
        split at hact
        · rename_i hn
          cases hact
          exact ⟨G + 1, inv_mk_new hE h hp hc hpc hn hb⟩
        · rename_i hn
          cases hact
          have hf := cc.first (.inr (.inl hpc))
          have e := seg_of_some hE h hp hc hl hn
          have e2 := (near hE h hp hc hl).2.2.1 hf
          have e3 := h.low
          exact loc _ s.mu hb rfl (by rw [hpc]; decide) (fun _ _ => ⟨by simp, by simp⟩)
            (ci_move cc hl .rm c.arr c.w (by simp [Loaded]) (fun _ => hf) (fun _ => by omega) (by simp [Late]) (by simp) (by simp) (by simp))
      case rm =>
        rw [ph2] at hact
        cases hact
        exact ⟨G, inv_rm h hc hpc hb⟩
      case unlock =>
        have hl : Loaded c.pc := by simp [Loaded, hpc]
        cases hact
        exact loc _ false hb rfl (by rw [hpc]; decide) (fun _ _ => ⟨by simp, by simp⟩)
          (ci_move cc hl .slice c.arr c.w (by simp [Loaded]) (by simp) (by simp) (fun _ => cc.late (by simp [Late, hpc])) (by simp) (by simp) (by simp))
      case slice =>
        have hl : Loaded c.pc := by simp [Loaded, hpc]
        have hla := cc.late (by simp [Late, hpc])
        rw [ph] at hact
        cases hs : s.bits (gen cfg.E c.n % 3) with
        | none =>
          have := (seg_of_first hE h hp hc hl hs).1
          omega
        | some b =>
          rw [hs] at hact
          cases hact
          exact loc _ s.mu hb rfl (by rw [hpc]; decide) (fun _ _ => ⟨by simp, by simp⟩)
            (ci_move cc hl .word b c.w (by simp [Loaded]) (by simp) (by simp) (fun _ => hla) (fun _ _ => hs) (by simp) (by simp))
      case word =>
        have hl : Loaded c.pc := by simp [Loaded, hpc]
        have hla := cc.late (by simp [Late, hpc])
        split at hact
        · rename_i ha
          cases hact
          exact loc _ s.mu hb rfl (by rw [hpc]; decide) (fun _ _ => ⟨by simp, by simp⟩)
            (ci_move cc hl .store c.arr _ (by simp [Loaded]) (by simp) (by simp) (fun _ => hla) (fun a _ => cc.arr a (.inl hpc)) (fun _ => ⟨ha, rfl⟩) (by simp))
        · rename_i ha
          have ha : c.add = false := by simpa using ha
          split at hact
          · cases hact
            exact loc _ s.mu hb rfl (by rw [hpc]; decide) (fun a => by rw [ha] at a; cases a) (ci_contains cc ha .next c.res _ (.inl rfl))
          · cases hact
            exact loc _ s.mu hb rfl (by rw [hpc]; decide) (fun _ _ => ⟨by simp, by simp⟩)
              (ci_move cc hl .slice2 c.arr c.w (by simp [Loaded]) (by simp) (by simp) (fun _ => hla) (by simp) (by simp) (fun _ => ha))
      case store => cases hact; exact ⟨G, inv_store hE hpos h ho hp hc hpc hb⟩
      case slice2 =>
        have hl : Loaded c.pc := by simp [Loaded, hpc]
        have hla := cc.late (by simp [Late, hpc])
        have ha := cc.two (.inl hpc)
        split at hact
        · cases hact
          exact loc _ s.mu hb rfl (by rw [hpc]; decide) (fun a => by rw [ha] at a; cases a) (ci_contains cc ha .ret false c.i (.inr rfl))
        · cases hact
          exact loc _ s.mu hb rfl (by rw [hpc]; decide) (fun _ _ => ⟨by simp, by simp⟩)
            (ci_move cc hl .word2 _ c.w (by simp [Loaded]) (by simp) (by simp) (fun _ => hla) (by simp) (by simp) (fun _ => ha))
      case word2 =>
        have ha := cc.two (.inr hpc)
        split at hact
        · cases hact
          exact loc _ s.mu hb rfl (by rw [hpc]; decide) (fun a => by rw [ha] at a; cases a) (ci_contains cc ha .next c.res _ (.inl rfl))
        · cases hact
          exact loc _ s.mu hb rfl (by rw [hpc]; decide) (fun a => by rw [ha] at a; cases a) (ci_contains cc ha .ret false c.i (.inr rfl))
      case ret => cases hact

theorem inv_new (hE : 0 < cfg.E) : Inv cfg (new cfg) 0 := by
  have hg : gen cfg.E 0 = 0 := by simp [gen, hE]
  have hph : (phase 0 cfg.E).1 = 0 := by rw [phase_gen, hg]
  refine ⟨basic_new cfg, ?_, by simp [new, hg], by simp [new, hg], ?_, ⟨0, by simp [new, hph], by simp [new]⟩, by simp, ?_, by simp [new]⟩
  · intro a l ha
    have : l ∈ [List.replicate cfg.W (0 : UInt64)] := List.mem_of_getElem? ha
    rw [List.mem_singleton] at this
    rw [this]
    exact List.length_replicate
  · intro e
    have e' : gen cfg.E 0 = 0 + 1 := e
    omega
  · intro e
    exact absurd (show (new cfg).bits ((0 + 1) % 3) = none by simp [new, hph]) e

theorem act_count (a : Act I) {t : St I} (h : act cfg s a = some t) : s.count ≤ t.count := by
  cases a with
  | add x => cases h; exact Nat.le_refl _
  | contains x => cases h; exact Nat.le_refl _
  | step i =>
    simp only [act] at h
    cases hc : s.log[i]? with
    | none => rw [hc] at h; cases h
    | some c =>
      rw [hc] at h
      simp only [Option.bind_some] at h
      cases hpc : c.pc <;> simp only [step, hpc] at h
      case inc => cases h; exact Nat.le_succ _
      all_goals first
        | (cases h; exact Nat.le_refl _)
        | (split at h <;> first | (cases h; exact Nat.le_refl _) | (split at h <;> (cases h; exact Nat.le_refl _)) | cases h)
        | cases h

theorem exec_count : ∀ (as : List (Act I)) (s t : St I), exec cfg s as = some t → s.count ≤ t.count := by
  intro as
  induction as with
  | nil => intro s t h; cases h; exact Nat.le_refl _
  | cons a as ih =>
    intro s t h
    simp only [exec] at h
    cases ha : act cfg s a with
    | none => rw [ha] at h; cases h
    | some u =>
      rw [ha] at h
      exact Nat.le_trans (act_count a ha) (ih u t h)

/-- Bits that are set stay set in their array. -/
theorem heap_mono (hpos : ∀ i x, cfg.pos i x < 64 * cfg.W) (h : Inv cfg s G) (hE : 0 < cfg.E) (hp : Prompt cfg.E s) (hc : s.log[i]? = some c) {t : St I}
    (ht : step cfg s i c = some t) (a q : Nat) (hh : has s.heap a q) : has t.heap a q := by
  have cc := h.calls i c hc
  cases hpc : c.pc <;> simp only [step, hpc] at ht
  case mk =>
    split at ht
    · cases ht; exact has_append hh _
    · cases ht; exact hh
  case store =>
    have hl : Loaded c.pc := by simp [Loaded, hpc]
    obtain ⟨hadd, hw⟩ := cc.word hpc
    have harr := cc.arr hadd (.inr hpc)
    obtain ⟨n1, n2, n3, n4⟩ := near hE h hp hc hl
    have hla := cc.late (by simp [Late, hpc])
    have hlow := h.low
    obtain ⟨b, hb1, hb2⟩ := bits_some h (show gen cfg.E c.n = G ∨ gen cfg.E c.n + 1 = G by omega)
    rw [hb1] at harr
    have hba := Option.some.inj harr
    have hget : s.heap[c.arr]? = some s.heap[c.arr] := List.getElem?_eq_getElem (by omega)
    have hq : cfg.pos c.i c.item < 64 * s.heap[c.arr].length := by
      rw [h.len _ _ hget]
      exact hpos _ _
    cases ht
    rw [hw]
    exact (has_store hget hq a q).2 (.inr hh)
  all_goals first
    | (cases ht; exact hh)
    | (split at ht <;> first | (cases ht; exact hh) | (split at ht <;> (cases ht; exact hh)) | cases ht)
    | cases ht

/-- A Contains that looks for the item of an Add that has returned. -/
structure Seen (cfg : Cfg I) (d : Call I) (heap : List (List UInt64)) (c : Call I) : Prop where
  add : c.add = false
  item : c.item = d.item
  num : d.num ≤ c.num
  round : Loaded c.pc → c.i < cfg.k
  word : c.pc = .word → gen cfg.E c.n = gen cfg.E d.num → has heap c.arr (cfg.pos c.i c.item)
  slice2 : c.pc = .slice2 → gen cfg.E c.n = gen cfg.E d.num + 1
  word2 : c.pc = .word2 → has heap c.arr (cfg.pos c.i c.item)
  ret : c.pc = .ret → c.res = true

theorem seen_step (hE : 0 < cfg.E) (hW : 0 < cfg.W) (h : Inv cfg s G) (hp : Prompt cfg.E s) {d : Call I} {j : Nat} (hd : s.log[j]? = some d) (hda : d.add = true)
    (hdr : d.pc = .ret) (hlt : s.count ≤ d.num + cfg.E) (hc : s.log[i]? = some c) (hs : Seen cfg d s.heap c) {t : St I} (ht : step cfg s i c = some t) :
    ∃ c', t.log = s.log.set i c' ∧ Seen cfg d t.heap c' := by
  have cc := h.calls i c hc
  have cd := h.calls j d hd
  have ph : (phase c.n cfg.E).1 = gen cfg.E c.n % 3 := by rw [phase_gen]
  have ph2 : (phase c.n cfg.E).2.2 = (gen cfg.E c.n + 2) % 3 := by rw [phase_gen]
  have hgd : gen cfg.E s.count ≤ gen cfg.E d.num + 1 := gen_within hE hlt
  have hlow := h.low
  have ditems : ∀ k < cfg.k, ∃ a, s.bits (gen cfg.E d.num % 3) = some a ∧ has s.heap a (cfg.pos k d.item) := fun k hk =>
    cd.items hda (by rw [hdr]; decide) k (Nat.lt_of_lt_of_le hk (cd.all hda hdr)) (by omega)
  have mk := fun (c' : Call I) (e : t.log = s.log.set i c') (hs : Seen cfg d t.heap c') => (⟨c', e, hs⟩ : ∃ c', t.log = s.log.set i c' ∧ Seen cfg d t.heap c')
  have plain : ∀ (p : Pc), Loaded c.pc → (p = .lock ∨ p = .mk ∨ p = .rm ∨ p = .unlock ∨ p = .slice) → ∀ heap, Seen cfg d heap { c with pc := p } := by
    intro p hl hpp heap
    have hr := hs.round hl
    rcases hpp with rfl | rfl | rfl | rfl | rfl <;> exact ⟨hs.add, hs.item, hs.num, fun _ => hr, by simp, by simp, by simp, by simp⟩
  have again : ∀ heap, Seen cfg d heap { c with i := c.i + 1, pc := .next } := fun heap =>
    ⟨hs.add, hs.item, hs.num, by simp [Loaded], by simp, by simp, by simp, by simp⟩
  have hcn : Loaded c.pc → gen cfg.E d.num ≤ gen cfg.E c.n ∧ gen cfg.E c.n ≤ gen cfg.E s.count := fun hl =>
    ⟨gen_mono hE (Nat.le_trans hs.num (cc.load hl).1), gen_mono hE (cc.load hl).2⟩
  cases hpc : c.pc <;> simp only [step, hpc] at ht
  case inc =>
    have := (cc.zero hpc).2
    rw [hs.add] at this
    cases this
  case next =>
    split at ht
    · cases ht
      refine mk _ rfl ⟨hs.add, hs.item, hs.num, by simp [Loaded], by simp, by simp, by simp, fun _ => ?_⟩
      show (!c.add) = true
      rw [hs.add]
      rfl
    · split at ht
      · omega
      · cases ht
        exact mk _ rfl ⟨hs.add, hs.item, hs.num, fun _ => by show c.i < cfg.k; omega, by simp, by simp, by simp, by simp⟩
  case chk =>
    cases ht
    refine mk _ rfl (plain _ (by simp [Loaded, hpc]) ?_ _)
    split <;> simp
  case lock =>
    split at ht
    · cases ht
    · cases ht; exact mk _ rfl (plain _ (by simp [Loaded, hpc]) (by simp) _)
  case mk => split at ht <;> (cases ht; exact mk _ rfl (plain _ (by simp [Loaded, hpc]) (by simp) _))
  case rm => cases ht; exact mk _ rfl (plain _ (by simp [Loaded, hpc]) (by simp) _)
  case unlock => cases ht; exact mk _ rfl (plain _ (by simp [Loaded, hpc]) (by simp) _)
  case slice =>
    have hl : Loaded c.pc := by simp [Loaded, hpc]
    have hla := cc.late (by simp [Late, hpc])
    rw [ph] at ht
    cases hb : s.bits (gen cfg.E c.n % 3) with
    | none =>
      have := (seg_of_first hE h hp hc hl hb).1
      omega
    | some b =>
      rw [hb] at ht
      cases ht
      refine mk _ rfl ⟨hs.add, hs.item, hs.num, fun _ => hs.round hl, fun _ e => ?_, by simp, by simp, by simp⟩
      have e' : gen cfg.E c.n = gen cfg.E d.num := e
      obtain ⟨a, ha, hh⟩ := ditems c.i (hs.round hl)
      rw [← e', hb] at ha
      cases ha
      show has s.heap b (cfg.pos c.i c.item)
      rw [hs.item]
      exact hh
  case word =>
    have hl : Loaded c.pc := by simp [Loaded, hpc]
    rw [if_neg (by rw [hs.add]; decide)] at ht
    split at ht
    · cases ht; exact mk _ rfl (again _)
    · rename_i hno
      cases ht
      refine mk _ rfl ⟨hs.add, hs.item, hs.num, fun _ => hs.round hl, by simp, fun _ => ?_, by simp, by simp⟩
      show gen cfg.E c.n = gen cfg.E d.num + 1
      have := hcn hl
      have hne : gen cfg.E c.n ≠ gen cfg.E d.num := fun e => hno (hs.word hpc e)
      omega
  case store =>
    have := (cc.word hpc).1
    rw [hs.add] at this
    cases this
  case slice2 =>
    have hl : Loaded c.pc := by simp [Loaded, hpc]
    have e := hs.slice2 hpc
    have e2 : (gen cfg.E c.n + 2) % 3 = gen cfg.E d.num % 3 := by omega
    obtain ⟨a, ha, hh⟩ := ditems c.i (hs.round hl)
    rw [ph2, e2, ha] at ht
    cases ht
    refine mk _ rfl ⟨hs.add, hs.item, hs.num, fun _ => hs.round hl, by simp, by simp, fun _ => ?_, by simp⟩
    show has s.heap a (cfg.pos c.i c.item)
    rw [hs.item]
    exact hh
  case word2 =>
    split at ht
    · cases ht; exact mk _ rfl (again _)
    · rename_i hno
      exact absurd (hs.word2 hpc) hno
  case ret => cases ht

theorem seen_heap {d c : Call I} {heap heap' : List (List UInt64)} (h : Seen cfg d heap c) (hm : ∀ a q, has heap a q → has heap' a q) : Seen cfg d heap' c :=
  ⟨h.add, h.item, h.num, h.round, fun a b => hm _ _ (h.word a b), h.slice2, fun a => hm _ _ (h.word2 a), h.ret⟩

/-- Any action keeps the Add and its Contains. -/
theorem seen_act (hE : 0 < cfg.E) (hW : 0 < cfg.W) (hpos : ∀ i x, cfg.pos i x < 64 * cfg.W) (h : Inv cfg s G) (hp : Prompt cfg.E s) {d : Call I} {j : Nat} (hd : s.log[j]? = some d)
    (hda : d.add = true) (hdr : d.pc = .ret) (hlt : s.count ≤ d.num + cfg.E) (hc : s.log[i]? = some c) (hs : Seen cfg d s.heap c) (a : Act I) {t : St I}
    (ht : act cfg s a = some t) : t.log[j]? = some d ∧ ∃ c', t.log[i]? = some c' ∧ Seen cfg d t.heap c' := by
  cases a with
  | add x => cases ht; exact ⟨app_get hd, c, app_get hc, hs⟩
  | contains x => cases ht; exact ⟨app_get hd, c, app_get hc, hs⟩
  | step m =>
    simp only [act] at ht
    cases hm : s.log[m]? with
    | none => rw [hm] at ht; cases ht
    | some e =>
      rw [hm] at ht
      simp only [Option.bind_some] at ht
      have hlog : ∃ e', t.log = s.log.set m e' := by
        cases hpc : e.pc <;> simp only [step, hpc] at ht
        all_goals first
          | (cases ht; exact ⟨_, rfl⟩)
          | (split at ht <;> first | (cases ht; exact ⟨_, rfl⟩) | (split at ht <;> (cases ht; exact ⟨_, rfl⟩)) | cases ht)
          | cases ht
      obtain ⟨e', hlog⟩ := hlog
      have hjm : j ≠ m := by
        rintro rfl
        rw [hd] at hm
        cases hm
        simp only [step, hdr] at ht
        cases ht
      refine ⟨by rw [hlog, set_other hjm]; exact hd, ?_⟩
      by_cases hi : i = m
      · subst hi
        rw [hc] at hm
        cases hm
        obtain ⟨c', h1, h2⟩ := seen_step hE hW h hp hd hda hdr hlt hc hs ht
        exact ⟨c', by rw [h1]; exact set_self hc, h2⟩
      · exact ⟨c, by rw [hlog, set_other hi]; exact hc, seen_heap hs (heap_mono hpos h hE hp hm ht)⟩

end steps

end Gofer.BloomConc
