import Verif.Spec.Gosignal
import Verif.Proof.Count
import Mathlib.Data.List.Basic

/-! # Signals: helper lemmas -/
namespace Gofer.Gosignal
open Gofer.Count

theorem wants_iff (sigs : List Nat) (g : Nat) : wants sigs g = true ↔ For sigs g := by
  simp [wants, For]

theorem exec_inv {P : St → Prop} (hs : ∀ s a t, P s → step s a = some t → P t) :
    ∀ (as : List Act) (s t : St), P s → exec s as = some t → P t
  | [], s, t, h, e => by cases e; exact h
  | a :: as, s, t, h, e => by
    simp only [exec, Option.bind_eq_some_iff] at e
    obtain ⟨u, hu, e⟩ := e
    exact exec_inv hs as u t (hs s a u h hu) e

theorem calls_cons (i : Nat) (e : Ev) (h : List Ev) : calls i (e :: h) = calls i h ++ (match e with | .call j g => if j = i then [g] else [] | _ => []) := by
  cases e <;> simp [calls]
  split <;> simp_all

theorem defaults_cons (e : Ev) (h : List Ev) : defaults (e :: h) = defaults h ++ (match e with | .dflt g => [g] | _ => []) := by
  cases e <;> simp [defaults]

theorem dropWhile_app {α : Type} (p : α → Bool) (a : α) : ∀ (l : List α), (∃ x ∈ l, p x = false) → (l ++ [a]).dropWhile p = l.dropWhile p ++ [a]
  | [], h => by simp at h
  | x :: l, h => by
    simp only [List.cons_append, List.dropWhile_cons]
    cases hx : p x with
    | false => simp
    | true =>
      simp only [if_true]
      refine dropWhile_app p a l ?_
      obtain ⟨y, hy, hp⟩ := h
      rcases List.mem_cons.1 hy with rfl | hy
      · rw [hx] at hp; cases hp
      · exact ⟨y, hy, hp⟩

theorem since_cons {i : Nat} (e : Ev) {h : List Ev} (hi : Ev.listen i ∈ h) :
    since i (e :: h) = since i h ++ (match e with | .signal g => [g] | _ => []) := by
  rw [since, List.reverse_cons, dropWhile_app _ _ _ ⟨.listen i, by simpa using hi, by simp⟩, List.filterMap_append]
  cases e <;> simp [since]

theorem dropWhile_new {α : Type} (p : α → Bool) (a : α) (ha : p a = false) : ∀ (l : List α), (∀ x ∈ l, p x = true) → (l ++ [a]).dropWhile p = [a]
  | [], _ => by simp [ha]
  | x :: l, h => by
    simp only [List.cons_append, List.dropWhile_cons, h x (by simp), if_true]
    exact dropWhile_new p a ha l fun y hy => h y (by simp [hy])

theorem since_new {i : Nat} {h : List Ev} (hi : Ev.listen i ∉ h) : since i (.listen i :: h) = [] := by
  rw [since, List.reverse_cons, dropWhile_new _ _ (by simp) _ ?_]
  · rfl
  · intro x hx
    simp only [List.mem_reverse] at hx
    simp only [ne_eq, decide_not, Bool.not_eq_eq_eq_not, Bool.not_true, decide_eq_false_iff_not]
    rintro rfl; exact hi hx

/-- The signals for a listener. -/
def mine (sigs : List Nat) (i : Nat) (h : List Ev) : List Nat := (since i h).filter (wants sigs)

/-- What is known of a listener. -/
def LOk (i : Nat) (h : List Ev) (l : Lis) : Prop :=
  match l.pc with
  | .wait => calls i h = [] ∧ (mine l.sigs i h).take 1 = l.buf
  | .got g => calls i h = [] ∧ (mine l.sigs i h).head? = some g
  | .calling g => calls i h = [g] ∧ (mine l.sigs i h).head? = some g
  | .done => ∃ g, calls i h = [g] ∧ (mine l.sigs i h).head? = some g

structure Inv (s : St) : Prop where
  known : ∀ i, Ev.listen i ∈ s.log ↔ i < s.lis.length
  fresh : ∀ i, s.lis.length ≤ i → calls i s.log = []
  ok : ∀ (i : Nat) (l : Lis), s.lis[i]? = some l → LOk i s.log l

theorem inv_init : Inv init := ⟨by simp [init], by simp [init, calls], by simp [init]⟩

theorem head_app {α : Type} {l m : List α} {a : α} (h : l.head? = some a) : (l ++ m).head? = some a := by
  cases l with
  | nil => cases h
  | cons x l => simpa using h

theorem lok_same {i : Nat} {h h' : List Ev} {l : Lis} (h1 : calls i h' = calls i h) (h2 : since i h' = since i h) (I : LOk i h l) : LOk i h' l := by
  unfold LOk mine at *
  rw [h1, h2]; exact I

theorem lok_notify {i : Nat} {h h' : List Ev} {l : Lis} {g : Nat} (h1 : calls i h' = calls i h) (h2 : since i h' = since i h ++ [g]) (I : LOk i h l) :
    LOk i h' (notify g l) := by
  have hm : mine l.sigs i h' = mine l.sigs i h ++ if wants l.sigs g then [g] else [] := by
    rw [mine, h2, List.filter_append, mine]
    congr 1
    cases hw : wants l.sigs g <;> simp [hw]
  have hs : (notify g l).sigs = l.sigs := by unfold notify; split <;> rfl
  have hp : (notify g l).pc = l.pc := by unfold notify; split <;> rfl
  unfold LOk at *
  rw [hs, hp, h1, hm]
  cases hpc : l.pc with
  | wait =>
    simp only [hpc] at I ⊢
    refine ⟨I.1, ?_⟩
    have hb := I.2
    cases hw : wants l.sigs g with
    | false => simp [notify, hw, hb]
    | true =>
      simp only [notify, hw, Bool.true_and, if_true]
      cases hl : mine l.sigs i h with
      | nil => rw [hl] at hb; simp [← hb, cap]
      | cons x y => rw [hl] at hb; simp [← hb, cap]
  | got g' => simp only [hpc] at I ⊢; exact ⟨I.1, head_app I.2⟩
  | calling g' => simp only [hpc] at I ⊢; exact ⟨I.1, head_app I.2⟩
  | done =>
    simp only [hpc] at I ⊢
    obtain ⟨g', a, b⟩ := I
    exact ⟨g', a, head_app b⟩

theorem inv_step (s : St) (a : Act) (t : St) (I : Inv s) (h : step s a = some t) : Inv t := by
  obtain ⟨h1, h2, h3⟩ := I
  have kn : ∀ {i : Nat} {l : Lis}, s.lis[i]? = some l → Ev.listen i ∈ s.log := fun h => (h1 _).2 (List.getElem?_eq_some_iff.1 h).1
  cases a with
  | listen sigs =>
    simp only [step, Option.some.injEq] at h
    subst h
    refine ⟨?_, ?_, ?_⟩
    · intro i
      simp only [List.mem_cons, Ev.listen.injEq, h1, List.length_append, List.length_singleton]
      omega
    · intro i hi
      simp only [List.length_append, List.length_singleton] at hi
      simpa [calls_cons] using h2 i (by omega)
    · intro i l hl
      have hnew : Ev.listen s.lis.length ∉ s.log := fun h => by have := (h1 _).1 h; omega
      rcases get_app hl with ⟨hl, _⟩ | ⟨rfl, rfl⟩
      · exact lok_same (by simp [calls_cons]) (by simp [since_cons _ (kn hl)]) (h3 i l hl)
      · simp only [LOk, mine, since_new hnew, calls_cons, h2 _ (Nat.le_refl _)]
        simp
  | signal g =>
    simp only [step, Option.some.injEq] at h
    have hlog : ∀ i, calls i t.log = calls i s.log ∧ (Ev.listen i ∈ t.log ↔ Ev.listen i ∈ s.log) ∧ (Ev.listen i ∈ s.log → since i t.log = since i s.log ++ [g]) := by
      intro i
      subst h
      simp only
      split
      · refine ⟨by simp [calls_cons], by simp, fun hi => by simp [since_cons _ hi]⟩
      · refine ⟨by simp [calls_cons], by simp, fun hi => ?_⟩
        rw [since_cons _ (by simp [hi]), since_cons _ hi]; simp
    have hlis : t.lis = s.lis.map (notify g) := by subst h; rfl
    refine ⟨?_, ?_, ?_⟩
    · intro i
      rw [(hlog i).2.1, h1, hlis]; simp
    · intro i hi
      rw [hlis] at hi
      rw [(hlog i).1]; exact h2 i (by simpa using hi)
    · intro i l hl
      rw [hlis, List.getElem?_map, Option.map_eq_some_iff] at hl
      obtain ⟨l0, hl0, rfl⟩ := hl
      exact lok_notify (hlog i).1 ((hlog i).2.2 (kn hl0)) (h3 i l0 hl0)
  | step i =>
    simp only [step, goStep] at h
    cases hl : s.lis[i]? with
    | none => simp [hl] at h
    | some l =>
      simp only [hl] at h
      have ok := h3 i l hl
      cases hp : l.pc with
      | wait =>
        simp only [hp] at h
        cases hb : l.buf with
        | nil => simp [hb] at h
        | cons g b =>
          simp only [hb, Option.some.injEq] at h
          subst h
          refine ⟨by simpa using h1, by simpa using h2, ?_⟩
          intro j l' hj
          rcases get_set_cases hj with ⟨rfl, rfl⟩ | ⟨_, hj⟩
          · simp only [LOk, hp, hb] at ok ⊢
            refine ⟨ok.1, ?_⟩
            cases hm : mine l.sigs j s.log with
            | nil => rw [hm] at ok; simp at ok
            | cons x y => rw [hm] at ok; simp at ok; simp [ok]
          · exact h3 j l' hj
      | got g =>
        simp only [hp, Option.some.injEq] at h
        subst h
        refine ⟨by simpa using h1, ?_, ?_⟩
        · intro j hj
          simp only [List.length_set] at hj
          have : i ≠ j := by have := (List.getElem?_eq_some_iff.1 hl).1; omega
          simpa [calls_cons, this] using h2 j hj
        · intro j l' hj
          rcases get_set_cases hj with ⟨rfl, rfl⟩ | ⟨hne, hj⟩
          · simp only [LOk, hp] at ok ⊢
            simp only [mine, since_cons _ (kn hl), calls_cons, ok.1, List.append_nil] at ok ⊢
            simp [ok.2]
          · exact lok_same (by simp [calls_cons, Ne.symm hne]) (by simp [since_cons _ (kn hj)]) (h3 j l' hj)
      | calling g =>
        simp only [hp, Option.some.injEq] at h
        subst h
        refine ⟨by simpa using h1, ?_, ?_⟩
        · intro j hj
          simp only [List.length_set] at hj
          simpa [calls_cons] using h2 j hj
        · intro j l' hj
          rcases get_set_cases hj with ⟨rfl, rfl⟩ | ⟨hne, hj⟩
          · simp only [LOk, hp] at ok ⊢
            refine ⟨g, ?_⟩
            simp only [mine, since_cons _ (kn hl), calls_cons, ok.1, List.append_nil] at ok ⊢
            simp [ok.2]
          · exact lok_same (by simp [calls_cons]) (by simp [since_cons _ (kn hj)]) (h3 j l' hj)
      | done => simp [hp] at h

theorem inv_exec {as : List Act} {s : St} (h : exec init as = some s) : Inv s := exec_inv inv_step as init s inv_init h

/-- The signals asked for stay the same. -/
theorem sigs_stay {s t : St} {a : Act} (h : step s a = some t) {i : Nat} {l : Lis} (hl : s.lis[i]? = some l) : ∃ l', t.lis[i]? = some l' ∧ l'.sigs = l.sigs := by
  have hi := (List.getElem?_eq_some_iff.1 hl).1
  cases a with
  | listen sigs =>
    simp only [step, Option.some.injEq] at h
    subst h
    exact ⟨l, by rw [List.getElem?_append_left hi]; exact hl, rfl⟩
  | signal g =>
    simp only [step, Option.some.injEq] at h
    subst h
    refine ⟨notify g l, by simp [hl], ?_⟩
    unfold notify; split <;> rfl
  | step j =>
    simp only [step, goStep] at h
    cases hj : s.lis[j]? with
    | none => simp [hj] at h
    | some m =>
      simp only [hj] at h
      have key : ∀ m' : Lis, m'.sigs = m.sigs → ∃ l', (s.lis.set j m')[i]? = some l' ∧ l'.sigs = l.sigs := by
        intro m' hm
        by_cases hij : i = j
        · subst hij
          rw [hl] at hj; cases hj
          exact ⟨m', get_set_self hl, hm⟩
        · exact ⟨l, by rw [get_set_ne hij]; exact hl, rfl⟩
      cases hp : m.pc with
      | wait =>
        simp only [hp] at h
        cases hb : m.buf with
        | nil => simp [hb] at h
        | cons g b => simp only [hb, Option.some.injEq] at h; subst h; exact key _ rfl
      | got g => simp only [hp, Option.some.injEq] at h; subst h; exact key _ rfl
      | calling g => simp only [hp, Option.some.injEq] at h; subst h; exact key _ rfl
      | done => simp [hp] at h

/-- A signal somebody listens for never has its default action again. -/
theorem no_default {s t : St} {a : Act} (h : step s a = some t) {i : Nat} {l : Lis} (hl : s.lis[i]? = some l) {g : Nat} (hg : For l.sigs g) :
    (defaults t.log).count g = (defaults s.log).count g := by
  cases a with
  | listen sigs =>
    simp only [step, Option.some.injEq] at h
    subst h; simp [defaults_cons]
  | signal g' =>
    simp only [step, Option.some.injEq] at h
    subst h
    simp only
    split
    · simp [defaults_cons]
    · rename_i hn
      simp only [defaults_cons, List.append_nil, List.count_append]
      have : g' ≠ g := by
        rintro rfl
        exact hn (List.any_eq_true.2 ⟨l, List.mem_of_getElem? hl, (wants_iff _ _).2 hg⟩)
      simp [this]
  | step j =>
    simp only [step, goStep] at h
    cases hj : s.lis[j]? with
    | none => simp [hj] at h
    | some m =>
      simp only [hj] at h
      cases hp : m.pc with
      | wait =>
        simp only [hp] at h
        cases hb : m.buf with
        | nil => simp [hb] at h
        | cons g b => simp only [hb, Option.some.injEq] at h; subst h; rfl
      | got g => simp only [hp, Option.some.injEq] at h; subst h; simp [defaults_cons]
      | calling g => simp only [hp, Option.some.injEq] at h; subst h; simp [defaults_cons]
      | done => simp [hp] at h

theorem stay_exec : ∀ (as : List Act) {s t : St}, exec s as = some t → ∀ {i : Nat} {l : Lis}, s.lis[i]? = some l →
    (∃ l', t.lis[i]? = some l' ∧ l'.sigs = l.sigs) ∧ ∀ g, For l.sigs g → (defaults t.log).count g = (defaults s.log).count g
  | [], s, t, h, i, l, hl => by cases h; exact ⟨⟨l, hl, rfl⟩, fun _ _ => rfl⟩
  | a :: as, s, t, h, i, l, hl => by
    simp only [exec, Option.bind_eq_some_iff] at h
    obtain ⟨u, hu, h⟩ := h
    obtain ⟨l', hl', hs⟩ := sigs_stay hu hl
    obtain ⟨⟨l2, hl2, hs2⟩, hd⟩ := stay_exec as h hl'
    refine ⟨⟨l2, hl2, by rw [hs2, hs]⟩, fun g hg => ?_⟩
    rw [hd g (by rw [hs]; exact hg), no_default hu hl hg]

end Gofer.Gosignal
