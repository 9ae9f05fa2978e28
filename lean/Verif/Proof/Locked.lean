import Verif.Model.Locked
/-! # Lemmas about objects under mutexes -/
namespace Gofer.Locked
open Gofer.Spec.Linear

variable {n : Nat} {ι S Op R L : Type} [DecidableEq ι]

/-- The parts after a sequence of methods. -/
def play (idx : Op → ι) (ap : Op → S → S × R) (s : ι → S) : List Op → ι → S
  | [] => s
  | op :: os => play idx ap (fun i => if i = idx op then (ap op (s (idx op))).1 else s i) os

theorem play_snoc (idx : Op → ι) (ap : Op → S → S × R) (os : List Op) (op : Op) : ∀ s : ι → S,
    play idx ap s (os ++ [op]) =
      fun i => if i = idx op then (ap op (play idx ap s os (idx op))).1 else play idx ap s os i := by
  induction os with
  | nil => intro s; rfl
  | cons a os ih => intro s; exact ih _

theorem results_snoc (idx : Op → ι) (ap : Op → S → S × R) (os : List Op) (op : Op) : ∀ s : ι → S,
    results idx ap s (os ++ [op]) = results idx ap s os ++ [(ap op (play idx ap s os (idx op))).2] := by
  induction os with
  | nil => intro s; rfl
  | cons a os ih => intro s; simp [results, play, ih]

/-- The call a goroutine is in. -/
def Pc.id? : Pc Op R L → Option Nat
  | .idle => none
  | .wait i _ => some i
  | .inn i _ _ => some i
  | .fin i _ _ => some i
  | .out i _ _ => some i

/-- A goroutine inside, with its local state. -/
def Pc.inside : Pc Op R L → Option (Op × L)
  | .inn _ op l => some (op, l)
  | _ => none

/-- What is known of a goroutine's call. -/
def pcOk (hist : List (Ev Op R)) (log : List (Nat × Op × R)) : Pc Op R L → Prop
  | .idle => True
  | .wait i op => Ev.inv i op ∈ hist ∧ ∀ x ∈ log, x.1 ≠ i
  | .inn i op _ => Ev.inv i op ∈ hist ∧ ∀ x ∈ log, x.1 ≠ i
  | .fin i op r => (i, op, r) ∈ log
  | .out i op r => (i, op, r) ∈ log

/-- Invariant. -/
structure Inv (o : Obj ι S Op R L) (ap : Op → S → S × R) (s0 : ι → S) (s : St n ι S Op R L) : Prop where
  fresh : ∀ i op, Ev.inv i op ∈ s.hist → i < s.next
  idlt : ∀ t i, (s.pc t).id? = some i → i < s.next
  idne : ∀ t t' i, (s.pc t).id? = some i → (s.pc t').id? = some i → t = t'
  ok : ∀ t, pcOk s.hist s.log (s.pc t)
  nodup : (s.log.map (fun x => x.1)).Nodup
  called : ∀ x ∈ s.log, Ev.inv x.1 x.2.1 ∈ s.hist
  returned : ∀ i r, Ev.res i r ∈ s.hist → ∃ op, (i, op, r) ∈ s.log
  vals : s.log.map (fun x => x.2.2) = results o.idx ap s0 (s.log.map (fun x => x.2.1))
  order : ∀ (a b i : Nat) (r : R) (j : Nat) (op : Op), s.hist[a]? = some (.res i r) → s.hist[b]? = some (.inv j op) → a < b →
      ∀ (x y : Nat) (p q : Nat × Op × R), s.log[x]? = some p → s.log[y]? = some q → p.1 = i → q.1 = j → x < y
  excl : ∀ t t' op op', t ≠ t' → (s.pc t).holds = some op → (s.pc t').holds = some op' → o.idx op = o.idx op' →
      o.rd op = true ∧ o.rd op' = true
  inside : ∀ t op l, (s.pc t).inside = some (op, l) →
      Runs o op (play o.idx ap s0 (s.log.map (fun x => x.2.1)) (o.idx op)) (o.start op) (s.st (o.idx op)) (.inl l)
  quiet : ∀ k, (∀ t op l, (s.pc t).inside = some (op, l) → o.idx op = k → o.rd op = true) →
      s.st k = play o.idx ap s0 (s.log.map (fun x => x.2.1)) k

theorem inv_init (o : Obj ι S Op R L) (ap : Op → S → S × R) (s0 : ι → S) : Inv o ap s0 (init s0 : St n ι S Op R L) where
  fresh := by intro i op h; simp [init] at h
  idlt := by intro t i h; simp [init, Pc.id?] at h
  idne := by intro t t' i h; simp [init, Pc.id?] at h
  ok := by intro t; simp [init, pcOk]
  nodup := by simp [init]
  called := by simp [init]
  returned := by simp [init]
  vals := by simp [init, results]
  order := by intro a b i r j op h; simp [init] at h
  excl := by intro t t' op op' _ h; simp [init, Pc.holds] at h
  inside := by intro t op l h; simp [init, Pc.inside] at h
  quiet := by intro k _; rfl

theorem inside_holds {p : Pc Op R L} {op : Op} {l : L} (h : p.inside = some (op, l)) : p.holds = some op := by
  cases p <;> simp [Pc.inside] at h
  simp [Pc.holds, h.1]

theorem runs_ro {o : Obj ι S Op R L} {ap : Op → S → S × R} (im : Impl o ap) {op : Op} (hr : o.rd op = true) {s s' : S} {l : L} {z : L ⊕ R}
    (h : Runs o op s l s' z) : s' = s := by
  induction h with
  | refl => rfl
  | step _ ih => rw [im.ro op hr]; exact ih

theorem getElem?_snoc {α : Type} (l : List α) (x y : α) (a : Nat) (h : (l ++ [x])[a]? = some y) :
    l[a]? = some y ∨ (a = l.length ∧ x = y) := by
  rcases Nat.lt_trichotomy a l.length with h1 | h1 | h1
  · rw [List.getElem?_append_left h1] at h; exact .inl h
  · subst h1
    rw [List.getElem?_append_right (Nat.le_refl _)] at h
    simp at h; exact .inr ⟨rfl, h⟩
  · rw [List.getElem?_eq_none (by simp; omega)] at h; cases h

theorem pcOk_hist {hist : List (Ev Op R)} {log : List (Nat × Op × R)} {p : Pc Op R L} (e : Ev Op R)
    (h : pcOk hist log p) : pcOk (hist ++ [e]) log p := by
  cases p with
  | idle => trivial
  | wait i op => exact ⟨List.mem_append_left _ h.1, h.2⟩
  | inn i op l => exact ⟨List.mem_append_left _ h.1, h.2⟩
  | fin i op r => exact h
  | out i op r => exact h

theorem pcOk_log {hist : List (Ev Op R)} {log : List (Nat × Op × R)} {p : Pc Op R L} (e : Nat × Op × R)
    (hne : p.id? ≠ some e.1) (h : pcOk hist log p) : pcOk hist (log ++ [e]) p := by
  cases p with
  | idle => trivial
  | wait i op =>
    refine ⟨h.1, fun x hx => ?_⟩
    rcases List.mem_append.mp hx with hx | hx
    · exact h.2 x hx
    · simp at hx; subst hx; intro e'; exact hne (by simp [Pc.id?, e'])
  | inn i op l =>
    refine ⟨h.1, fun x hx => ?_⟩
    rcases List.mem_append.mp hx with hx | hx
    · exact h.2 x hx
    · simp at hx; subst hx; intro e'; exact hne (by simp [Pc.id?, e'])
  | fin i op r => exact List.mem_append_left _ h
  | out i op r => exact List.mem_append_left _ h

/-- A goroutine that moves without touching history, log or parts, and comes to hold no more than before. -/
theorem inv_move {o : Obj ι S Op R L} {ap : Op → S → S × R} {s0 : ι → S} {s : St n ι S Op R L} (h : Inv o ap s0 s) (t : Fin n)
    (p : Pc Op R L) (hid : ∀ i, p.id? = some i → (s.pc t).id? = some i) (hok : pcOk s.hist s.log p)
    (hex : ∀ t' op op', t' ≠ t → p.holds = some op → (s.pc t').holds = some op' → o.idx op = o.idx op' → o.rd op = true ∧ o.rd op' = true)
    (hin : ∀ op l, p.inside = some (op, l) →
      Runs o op (play o.idx ap s0 (s.log.map (fun x => x.2.1)) (o.idx op)) (o.start op) (s.st (o.idx op)) (.inl l))
    (hq : (s.pc t).inside = none) : Inv o ap s0 (setPc s t p) where
  fresh := h.fresh
  idlt := by
    intro t' i hi
    by_cases e : t' = t
    · simp only [setPc, e, if_true] at hi; exact h.idlt t i (hid i hi)
    · simp only [setPc, e, if_false] at hi; exact h.idlt t' i hi
  idne := by
    intro t1 t2 i h1 h2
    by_cases e1 : t1 = t <;> by_cases e2 : t2 = t <;> simp only [setPc, e1, e2, if_true, if_false] at h1 h2
    · rw [e1, e2]
    · exact absurd (h.idne t t2 i (hid i h1) h2) (fun e => e2 e.symm)
    · exact absurd (h.idne t1 t i h1 (hid i h2)) e1
    · exact h.idne t1 t2 i h1 h2
  ok := by
    intro t'
    by_cases e : t' = t
    · simp only [setPc, e, if_true]; exact hok
    · simp only [setPc, e, if_false]; exact h.ok t'
  nodup := h.nodup
  called := h.called
  returned := h.returned
  vals := h.vals
  order := h.order
  excl := by
    intro t1 t2 op op' hne h1 h2 hi
    by_cases e1 : t1 = t <;> by_cases e2 : t2 = t <;> simp only [setPc, e1, e2, if_true, if_false] at h1 h2
    · exact absurd (e1.trans e2.symm) hne
    · exact hex t2 op op' e2 h1 h2 hi
    · exact (hex t1 op' op e1 h2 h1 hi.symm).symm
    · exact h.excl t1 t2 op op' hne h1 h2 hi
  inside := by
    intro t' op l hi
    by_cases e : t' = t
    · simp only [setPc, e, if_true] at hi; exact hin op l hi
    · simp only [setPc, e, if_false] at hi; exact h.inside t' op l hi
  quiet := by
    intro k hk
    refine h.quiet k (fun t' op l hi hx => ?_)
    by_cases e : t' = t
    · rw [e, hq] at hi; cases hi
    · exact hk t' op l (by simp only [setPc, e, if_false]; exact hi) hx

theorem free_excl {o : Obj ι S Op R L} {s : St n ι S Op R L} {op : Op} (h : free o s op = true) (t : Fin n) (op' : Op)
    (ht : (s.pc t).holds = some op') (hi : o.idx op = o.idx op') : o.rd op = true ∧ o.rd op' = true := by
  have := List.all_eq_true.mp h t (List.mem_finRange t)
  rw [ht] at this
  simpa [hi] using this

theorem inv_act {o : Obj ι S Op R L} {ap : Op → S → S × R} (im : Impl o ap) {s0 : ι → S} {s s' : St n ι S Op R L} (h : Inv o ap s0 s)
    (a : Act n Op) (hs : act o s a = some s') : Inv o ap s0 s' := by
  cases a with
  | call t op =>
    cases hp : s.pc t with
    | idle =>
      simp only [act, hp, Option.some.injEq] at hs
      subst hs
      have hidp : ∀ t', t' ≠ t → ∀ i, (s.pc t').id? = some i → i < s.next := fun t' _ i hi => h.idlt t' i hi
      refine ⟨?_, ?_, ?_, ?_, h.nodup, ?_, ?_, h.vals, ?_, ?_, ?_, ?_⟩
      · intro i op' hm
        rcases List.mem_append.mp hm with hm | hm
        · exact Nat.lt_succ_of_lt (h.fresh i op' hm)
        · simp at hm; rw [hm.1]; exact Nat.lt_succ_self _
      · intro t' i hi
        by_cases e : t' = t
        · simp only [setPc, e, if_true, Pc.id?, Option.some.injEq] at hi; subst hi; exact Nat.lt_succ_self _
        · simp only [setPc, e, if_false] at hi; exact Nat.lt_succ_of_lt (h.idlt t' i hi)
      · intro t1 t2 i h1 h2
        by_cases e1 : t1 = t <;> by_cases e2 : t2 = t <;>
          simp only [setPc, e1, e2, if_true, if_false, Pc.id?, Option.some.injEq] at h1 h2
        · rw [e1, e2]
        · have := h.idlt t2 i h2; omega
        · have := h.idlt t1 i h1; omega
        · exact h.idne t1 t2 i h1 h2
      · intro t'
        by_cases e : t' = t
        · simp only [setPc, e, if_true]
          refine ⟨by simp, fun x hx e' => ?_⟩
          have := h.fresh x.1 x.2.1 (h.called x hx)
          omega
        · simp only [setPc, e, if_false]; exact pcOk_hist _ (h.ok t')
      · exact fun x hx => List.mem_append_left _ (h.called x hx)
      · intro i r hm
        rcases List.mem_append.mp hm with hm | hm
        · exact h.returned i r hm
        · simp at hm
      · intro a b i r j op' ha hb hab x y p q hx hy hpi hqj
        rcases getElem?_snoc _ _ _ _ ha with ha | ⟨_, ha⟩
        · rcases getElem?_snoc _ _ _ _ hb with hb | ⟨_, hb⟩
          · exact h.order a b i r j op' ha hb hab x y p q hx hy hpi hqj
          · injection hb with hb1 _
            have := h.fresh q.1 q.2.1 (h.called q (List.mem_of_getElem? hy))
            omega
        · cases ha
      · intro t1 t2 op1 op2 hne h1 h2 hi
        by_cases e1 : t1 = t <;> by_cases e2 : t2 = t <;> simp only [setPc, e1, e2, if_true, if_false, Pc.holds] at h1 h2
        · cases h1
        · cases h1
        · cases h2
        · exact h.excl t1 t2 op1 op2 hne h1 h2 hi
      · intro t' op' l hi
        by_cases e : t' = t
        · simp only [setPc, e, if_true, Pc.inside] at hi; cases hi
        · simp only [setPc, e, if_false] at hi; exact h.inside t' op' l hi
      · intro k hk
        refine h.quiet k (fun t' op' l hi hx => ?_)
        by_cases e : t' = t
        · rw [e, hp] at hi; cases hi
        · exact hk t' op' l (by simp only [setPc, e, if_false]; exact hi) hx
    | _ => simp [act, hp] at hs
  | lock t =>
    cases hp : s.pc t with
    | wait id op =>
      simp only [act, hp] at hs
      by_cases hf : free o s op = true
      · rw [if_pos hf] at hs
        injection hs with hs
        subst hs
        have hok := h.ok t
        rw [hp] at hok
        refine inv_move h t _ ?_ hok ?_ ?_ (by rw [hp]; rfl)
        · intro i hi; rw [hp]; exact hi
        · intro t' op1 op2 hne h1 h2 hi
          simp only [Pc.holds, Option.some.injEq] at h1
          subst h1
          exact free_excl hf t' op2 h2 hi
        · intro op1 l hi
          simp only [Pc.inside, Option.some.injEq, Prod.mk.injEq] at hi
          obtain ⟨rfl, rfl⟩ := hi
          have : s.st (o.idx op) = play o.idx ap s0 (s.log.map (fun x => x.2.1)) (o.idx op) := by
            refine h.quiet _ (fun t' op2 l2 hi hx => ?_)
            exact (free_excl hf t' op2 (inside_holds hi) hx.symm).2
          rw [this]
          exact .refl
      · rw [if_neg hf] at hs; cases hs
    | _ => simp [act, hp] at hs
  | unlock t =>
    cases hp : s.pc t with
    | fin id op r =>
      simp only [act, hp, Option.some.injEq] at hs
      subst hs
      have hok := h.ok t
      rw [hp] at hok
      refine inv_move h t _ ?_ hok ?_ ?_ (by rw [hp]; rfl)
      · intro i hi; rw [hp]; exact hi
      · intro t' op1 op2 _ h1; cases h1
      · intro op1 l hi; cases hi
    | _ => simp [act, hp] at hs
  | ret t =>
    cases hp : s.pc t with
    | out id op r =>
      simp only [act, hp, Option.some.injEq] at hs
      subst hs
      have hok := h.ok t
      rw [hp] at hok
      have h' : Inv o ap s0 (setPc s t .idle) := by
        refine inv_move h t _ ?_ trivial ?_ ?_ (by rw [hp]; rfl)
        · intro i hi; cases hi
        · intro t' op1 op2 _ h1; cases h1
        · intro op1 l hi; cases hi
      refine ⟨?_, h'.idlt, h'.idne, fun t' => pcOk_hist _ (h'.ok t'), h'.nodup, ?_, ?_, h'.vals, ?_, h'.excl, h'.inside, h'.quiet⟩
      · intro i op' hm
        rcases List.mem_append.mp hm with hm | hm
        · exact h.fresh i op' hm
        · simp at hm
      · exact fun x hx => List.mem_append_left _ (h.called x hx)
      · intro i r' hm
        rcases List.mem_append.mp hm with hm | hm
        · exact h.returned i r' hm
        · simp only [List.mem_singleton, Ev.res.injEq] at hm
          obtain ⟨rfl, rfl⟩ := hm
          exact ⟨op, hok⟩
      · intro a b i r' j op' ha hb hab x y p q hx hy hpi hqj
        rcases getElem?_snoc _ _ _ _ hb with hb | ⟨_, hb⟩
        · rcases getElem?_snoc _ _ _ _ ha with ha | ⟨ha, _⟩
          · exact h.order a b i r' j op' ha hb hab x y p q hx hy hpi hqj
          · have : b < s.hist.length := by
              rw [List.getElem?_eq_some_iff] at hb; exact hb.1
            omega
        · cases hb
    | _ => simp [act, hp] at hs
  | micro t =>
    cases hp : s.pc t with
    | inn id op l =>
      have hok := h.ok t
      rw [hp] at hok
      have hrun := h.inside t op l (by rw [hp]; rfl)
      have hother : ∀ t', t' ≠ t → ∀ op', (s.pc t').holds = some op' → o.idx op' = o.idx op → o.rd op = true ∧ o.rd op' = true :=
        fun t' hne op' hh hi => h.excl t t' op op' (Ne.symm hne) (by rw [hp]; rfl) hh hi.symm
      have hrun2 := Runs.step hrun
      simp only [act, hp] at hs
      cases hst : o.step op l (s.st (o.idx op)) with
      | mk x z =>
        rw [hst] at hs hrun2
        have hxro : o.rd op = true → x = s.st (o.idx op) := by
          intro hr
          have := im.ro op hr l (s.st (o.idx op))
          rw [hst] at this; exact this
        cases z with
        | inl l' =>
          simp only [Option.some.injEq] at hs
          subst hs
          refine ⟨h.fresh, ?_, ?_, ?_, h.nodup, h.called, h.returned, h.vals, h.order, ?_, ?_, ?_⟩
          · intro t' i hi
            by_cases e : t' = t
            · simp only [setPc, e, if_true] at hi; exact h.idlt t i (by rw [hp]; exact hi)
            · simp only [setPc, e, if_false] at hi; exact h.idlt t' i hi
          · intro t1 t2 i h1 h2
            by_cases e1 : t1 = t <;> by_cases e2 : t2 = t <;> simp only [setPc, e1, e2, if_true, if_false] at h1 h2
            · rw [e1, e2]
            · exact absurd (h.idne t t2 i (by rw [hp]; exact h1) h2) (fun e => e2 e.symm)
            · exact absurd (h.idne t1 t i h1 (by rw [hp]; exact h2)) e1
            · exact h.idne t1 t2 i h1 h2
          · intro t'
            by_cases e : t' = t
            · simp only [setPc, e, if_true]; exact hok
            · simp only [setPc, e, if_false]; exact h.ok t'
          · intro t1 t2 op1 op2 hne h1 h2 hi
            by_cases e1 : t1 = t <;> by_cases e2 : t2 = t <;> simp only [setPc, e1, e2, if_true, if_false] at h1 h2
            · exact absurd (e1.trans e2.symm) hne
            · exact h.excl t t2 op1 op2 (fun e => e2 e.symm) (by rw [hp]; exact h1) h2 hi
            · exact h.excl t1 t op1 op2 e1 h1 (by rw [hp]; exact h2) hi
            · exact h.excl t1 t2 op1 op2 hne h1 h2 hi
          · intro t' op' l2 hi
            by_cases e : t' = t
            · simp only [setPc, e, if_true, Pc.inside, Option.some.injEq, Prod.mk.injEq] at hi
              obtain ⟨rfl, rfl⟩ := hi
              simp only [setPc, setSt, if_true]
              exact hrun2
            · simp only [setPc, e, if_false] at hi
              have hh := h.inside t' op' l2 hi
              simp only [setPc, setSt]
              by_cases hk : o.idx op' = o.idx op
              · have hr := hother t' e op' (inside_holds hi) hk
                rw [if_pos hk, hxro hr.1, ← hk]
                exact hh
              · rw [if_neg hk]; exact hh
          · intro k hk
            simp only [setPc, setSt]
            by_cases hki : k = o.idx op
            · have hr : o.rd op = true := hk t op l' (by simp [setPc, Pc.inside]) hki.symm
              rw [if_pos hki, hxro hr, ← hki]
              refine h.quiet k (fun t' op' l2 hi hx => ?_)
              by_cases e : t' = t
              · rw [e, hp] at hi
                simp only [Pc.inside, Option.some.injEq, Prod.mk.injEq] at hi
                rw [← hi.1]; exact hr
              · exact hk t' op' l2 (by simp only [setPc, e, if_false]; exact hi) hx
            · rw [if_neg hki]
              refine h.quiet k (fun t' op' l2 hi hx => ?_)
              by_cases e : t' = t
              · rw [e, hp] at hi
                simp only [Pc.inside, Option.some.injEq, Prod.mk.injEq] at hi
                rw [← hi.1] at hx
                exact absurd hx.symm hki
              · exact hk t' op' l2 (by simp only [setPc, e, if_false]; exact hi) hx
        | inr r =>
          simp only [Option.some.injEq] at hs
          subst hs
          have hap := im.done op _ _ _ hrun2
          have hnl : ∀ i r', Ev.res i r' ∈ s.hist → i ≠ id := by
            intro i r' hm e
            obtain ⟨op', hl⟩ := h.returned i r' hm
            exact hok.2 _ hl e
          have hplay : play o.idx ap s0 ((s.log ++ [(id, op, r)]).map (fun x => x.2.1)) =
              fun i => if i = o.idx op then x else play o.idx ap s0 (s.log.map (fun x => x.2.1)) i := by
            rw [List.map_append, List.map_singleton, play_snoc, hap]
          refine ⟨h.fresh, ?_, ?_, ?_, ?_, ?_, ?_, ?_, ?_, ?_, ?_, ?_⟩
          · intro t' i hi
            by_cases e : t' = t
            · simp only [setPc, e, if_true] at hi; exact h.idlt t i (by rw [hp]; exact hi)
            · simp only [setPc, e, if_false] at hi; exact h.idlt t' i hi
          · intro t1 t2 i h1 h2
            by_cases e1 : t1 = t <;> by_cases e2 : t2 = t <;> simp only [setPc, e1, e2, if_true, if_false] at h1 h2
            · rw [e1, e2]
            · exact absurd (h.idne t t2 i (by rw [hp]; exact h1) h2) (fun e => e2 e.symm)
            · exact absurd (h.idne t1 t i h1 (by rw [hp]; exact h2)) e1
            · exact h.idne t1 t2 i h1 h2
          · intro t'
            by_cases e : t' = t
            · simp only [setPc, e, if_true]; exact List.mem_append_right _ (List.mem_singleton.mpr rfl)
            · simp only [setPc, e, if_false]
              refine pcOk_log _ (fun hi => ?_) (h.ok t')
              exact e (h.idne t' t id hi (by rw [hp]; rfl))
          · simp only [List.map_append, List.map_singleton]
            rw [List.nodup_append]
            refine ⟨h.nodup, List.nodup_cons.mpr ⟨List.not_mem_nil, List.nodup_nil⟩, ?_⟩
            intro a ha b hb
            rw [List.mem_singleton] at hb
            obtain ⟨y, hy, rfl⟩ := List.mem_map.mp ha
            rw [hb]
            exact hok.2 y hy
          · intro y hy
            rcases List.mem_append.mp hy with hy | hy
            · exact h.called y hy
            · rw [List.mem_singleton] at hy; subst hy; exact hok.1
          · intro i r' hm
            obtain ⟨op', hl⟩ := h.returned i r' hm
            exact ⟨op', List.mem_append_left _ hl⟩
          · simp only [List.map_append, List.map_singleton]
            rw [results_snoc, ← h.vals, hap]
          · intro a b i r' j op' ha hb hab y z p q hy hz hpi hqj
            have hi : i ≠ id := hnl i r' (List.mem_of_getElem? ha)
            rcases getElem?_snoc _ _ _ _ hy with hy | ⟨_, hy⟩
            · rcases getElem?_snoc _ _ _ _ hz with hz | ⟨hz, _⟩
              · exact h.order a b i r' j op' ha hb hab y z p q hy hz hpi hqj
              · rw [hz]; exact (List.getElem?_eq_some_iff.mp hy).1
            · rw [← hy] at hpi; exact absurd hpi.symm hi
          · intro t1 t2 op1 op2 hne h1 h2 hi
            by_cases e1 : t1 = t <;> by_cases e2 : t2 = t <;> simp only [setPc, e1, e2, if_true, if_false] at h1 h2
            · exact absurd (e1.trans e2.symm) hne
            · exact h.excl t t2 op1 op2 (fun e => e2 e.symm) (by rw [hp]; exact h1) h2 hi
            · exact h.excl t1 t op1 op2 e1 h1 (by rw [hp]; exact h2) hi
            · exact h.excl t1 t2 op1 op2 hne h1 h2 hi
          · intro t' op' l2 hi
            by_cases e : t' = t
            · simp only [setPc, e, if_true, Pc.inside] at hi; cases hi
            · simp only [setPc, e, if_false] at hi
              have hh := h.inside t' op' l2 hi
              rw [hplay]
              simp only [setPc, setSt]
              by_cases hk : o.idx op' = o.idx op
              · have hr := hother t' e op' (inside_holds hi) hk
                have h1 := runs_ro im hr.2 hh
                rw [if_pos hk, if_pos hk, hxro hr.1]
                rw [← h1, hk] at hh
                exact hh
              · rw [if_neg hk, if_neg hk]; exact hh
          · intro k hk
            rw [hplay]
            simp only [setPc, setSt]
            by_cases hki : k = o.idx op
            · rw [if_pos hki, if_pos hki]
            · rw [if_neg hki, if_neg hki]
              refine h.quiet k (fun t' op' l2 hi hx => ?_)
              by_cases e : t' = t
              · rw [e, hp] at hi
                simp only [Pc.inside, Option.some.injEq, Prod.mk.injEq] at hi
                rw [← hi.1] at hx
                exact absurd hx.symm hki
              · exact hk t' op' l2 (by simp only [setPc, e, if_false]; exact hi) hx
    | _ => simp [act, hp] at hs

theorem inv_exec {o : Obj ι S Op R L} {ap : Op → S → S × R} (im : Impl o ap) {s0 : ι → S} (as : List (Act n Op)) :
    ∀ {s s' : St n ι S Op R L}, Inv o ap s0 s → exec o s as = some s' → Inv o ap s0 s' := by
  induction as with
  | nil => intro s s' h hs; injection hs with hs; subst hs; exact h
  | cons a as ih =>
    intro s s' h hs
    simp only [exec] at hs
    cases ha : act o s a with
    | none => rw [ha] at hs; cases hs
    | some s1 => rw [ha] at hs; exact ih (inv_act im h a ha) hs

/-- Every execution gives a linearizable history. -/
theorem linearizable {o : Obj ι S Op R L} {ap : Op → S → S × R} (im : Impl o ap) (s0 : ι → S) (as : List (Act n Op)) (s : St n ι S Op R L)
    (h : exec o (init s0) as = some s) : Linearizable (results o.idx ap s0) s.hist :=
  have hi := inv_exec im as (inv_init o ap s0) h
  ⟨s.log, hi.nodup, hi.called, hi.returned, hi.vals, hi.order⟩

/-- What remains to be done after each step gives what the steps do together. -/
theorem impl_of_rest (o : Obj ι S Op R L) (ap : Op → S → S × R) (rest : Op → L → S → S × R)
    (h0 : ∀ op s, rest op (o.start op) s = ap op s)
    (h1 : ∀ op l s, match o.step op l s with
      | (s', .inl l') => rest op l s = rest op l' s'
      | (s', .inr r) => rest op l s = (s', r))
    (hro : ∀ op, o.rd op = true → ∀ l s, (o.step op l s).1 = s) : Impl o ap where
  done := by
    intro op s s' r h
    have key : ∀ s' z, Runs o op s (o.start op) s' z → match z with
        | .inl l' => rest op l' s' = ap op s
        | .inr r => ap op s = (s', r) := by
      intro s' z h
      induction h with
      | refl => exact h0 op s
      | step h ih =>
        rename_i s1 l1
        have ih : rest op l1 s1 = ap op s := ih
        have := h1 op l1 s1
        rcases hst : o.step op l1 s1 with ⟨s2, z⟩
        rw [hst] at this
        cases z with
        | inl l2 => exact this.symm.trans ih
        | inr r => exact ih.symm.trans this
    exact key s' _ h
  ro := hro

theorem atomic_runs (idx : Op → ι) (rd : Op → Bool) (ap : Op → S → S × R) {op : Op} {s s' : S} {l : Unit} {z : Unit ⊕ R}
    (h : Runs (atomic idx rd ap) op s l s' z) :
    (s' = s ∧ ∃ u, z = .inl u) ∨ (s' = (ap op s).1 ∧ z = .inr (ap op s).2) := by
  induction h with
  | refl => exact .inl ⟨rfl, l, rfl⟩
  | step h ih =>
    rcases ih with ⟨rfl, _⟩ | ⟨_, h2⟩
    · exact .inr ⟨rfl, rfl⟩
    · cases h2

theorem atomic_impl (idx : Op → ι) (rd : Op → Bool) (ap : Op → S → S × R) (hro : ∀ op, rd op = true → ∀ s, (ap op s).1 = s) :
    Impl (atomic idx rd ap) ap where
  done := by
    intro op s s' r h
    rcases atomic_runs idx rd ap h with ⟨_, u, hu⟩ | ⟨h1, h2⟩
    · cases hu
    · injection h2 with h2
      rw [h1, h2]
  ro := fun op hr _ s => hro op hr s

end Gofer.Locked
