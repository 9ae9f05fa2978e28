import Verif.Spec.FileExist

namespace Gofer.FileExistProof
open Gofer.FileExist Gofer.Spec.FileExist

theorem stands_comp (n : Bytes) (c : Comp) : Stands n c ↔ c = comp n := by
  unfold comp
  cases c <;> simp only [Stands] <;> (repeat' split) <;> simp_all

theorem pieces_ne (p : Bytes) : pieces p ≠ [] := by
  cases p with
  | nil => simp [pieces]
  | cons b r =>
    unfold pieces
    split
    · simp
    · split <;> simp

theorem pieces_cons (b : UInt8) (r : Bytes) : ∃ x ps, pieces r = x :: ps ∧
    pieces (b :: r) = if b = 47 then [] :: x :: ps else (b :: x) :: ps := by
  cases h : pieces r with
  | nil => exact absurd h (pieces_ne r)
  | cons x ps => exact ⟨x, ps, rfl, by rw [pieces, h]⟩

theorem joined_cons (b : UInt8) (x : Bytes) (ps : List Bytes) : joined ((b :: x) :: ps) = b :: joined (x :: ps) := by
  cases ps <;> rfl

theorem pieces_joined : ∀ (p : Bytes), joined (pieces p) = p ∧ ∀ x ∈ pieces p, 47 ∉ x
  | [] => by simp [pieces, joined]
  | b :: r => by
    obtain ⟨x, ps, h1, h2⟩ := pieces_cons b r
    obtain ⟨h3, h4⟩ := pieces_joined r
    rw [h1] at h3 h4
    rw [h2]
    split
    · rename_i hb
      subst hb
      refine ⟨by rw [joined, h3]; rfl, ?_⟩
      intro y hy
      rcases List.mem_cons.mp hy with rfl | hy
      · simp
      · exact h4 y hy
    · rename_i hb
      refine ⟨by rw [joined_cons, h3], ?_⟩
      intro y hy
      rcases List.mem_cons.mp hy with rfl | hy
      · intro h
        rcases List.mem_cons.mp h with h | h
        · exact hb h.symm
        · exact h4 x (by simp) h
      · exact h4 y (List.mem_cons_of_mem _ hy)

theorem pieces_unique : ∀ (p : Bytes) (ps : List Bytes), ps ≠ [] → (∀ x ∈ ps, 47 ∉ x) → joined ps = p → ps = pieces p := by
  intro p
  induction p with
  | nil =>
    intro ps hn _ hj
    match ps, hn, hj with
    | [x], _, hj => simp only [joined] at hj; rw [hj]; rfl
    | x :: y :: r, _, hj => simp [joined] at hj
  | cons b r ih =>
    intro ps hn hs hj
    obtain ⟨x, qs, h1, h2⟩ := pieces_cons b r
    match ps, hn, hs, hj with
    | [] :: rest, _, hs, hj =>
      cases rest with
      | nil => simp [joined] at hj
      | cons y rest =>
        simp only [joined, List.nil_append, List.cons.injEq] at hj
        have := ih (y :: rest) (by simp) (fun x hx => hs x (List.mem_cons_of_mem _ hx)) hj.2
        rw [h2, if_pos hj.1.symm, this, h1]
    | (a :: x') :: rest, _, hs, hj =>
      rw [joined_cons, List.cons.injEq] at hj
      have ha : b ≠ 47 := by
        intro e
        apply hs (a :: x') (by simp)
        rw [hj.1, e]
        simp
      have := ih (x' :: rest) (by simp) (by
        intro y hy
        rcases List.mem_cons.mp hy with rfl | hy
        · intro h; exact hs (a :: y) (by simp) (List.mem_cons_of_mem _ h)
        · exact hs y (List.mem_cons_of_mem _ hy)) hj.2
      rw [h1] at this
      rw [h2, if_neg ha, hj.1]
      simp only [List.cons.injEq] at this
      rw [this.1, this.2]

theorem stands_all (ps : List Bytes) : ∀ cs, List.Forall₂ Stands ps cs ↔ cs = ps.map comp := by
  induction ps with
  | nil =>
    intro cs
    constructor
    · intro h; cases h; rfl
    · rintro rfl; exact .nil
  | cons n ps ih =>
    intro cs
    constructor
    · intro h
      cases h with
      | cons h1 h2 => rw [(stands_comp _ _).mp h1, (ih _).mp h2]; rfl
    · rintro rfl
      exact .cons ((stands_comp _ _).mpr rfl) ((ih _).mpr rfl)

theorem path_iff (p : Bytes) (cs : List Comp) : Path p cs ↔ cs = comps p := by
  constructor
  · rintro ⟨ps, h1, h2, h3, h4⟩
    rw [(stands_all ps cs).mp h4, pieces_unique p ps h1 h2 h3]
    rfl
  · rintro rfl
    exact ⟨pieces p, pieces_ne p, (pieces_joined p).2, (pieces_joined p).1, (stands_all _ _).mpr rfl⟩

theorem from_iff (root place : List Node) (p : Bytes) (q : List Node) : From root place p q ↔ q = start root place p := by
  unfold From start
  cases p with
  | nil => simp
  | cons b r =>
    by_cases hb : b = 47
    · subst hb; simp
    · simp [hb]

theorem go_iff (root : List Node) (follow : List Node → List Comp → Except Errno Node) (lim : Nat → Prop)
    (hf : ∀ place cs x, follow place cs = .ok x ↔ ∃ k, lim (k + 1) ∧ Leads root place cs x k) (h0 : lim 0) :
    ∀ (cs : List Comp) (place : List Node) (x : Node), go root follow place cs = .ok x ↔ ∃ k, lim k ∧ Leads root place cs x k := by
  intro cs
  induction cs with
  | nil =>
    intro place x
    cases place with
    | nil =>
      simp only [go, reduceCtorEq, false_iff]
      rintro ⟨k, _, h⟩
      cases h
    | cons cur above =>
      simp only [go, Except.ok.injEq]
      constructor
      · rintro rfl
        exact ⟨0, h0, .done _ _⟩
      · rintro ⟨k, _, h⟩
        cases h
        rfl
  | cons c cs ih =>
    intro place x
    cases place with
    | nil =>
      simp only [go, reduceCtorEq, false_iff]
      rintro ⟨k, _, h⟩
      cases h
    | cons cur above =>
      by_cases hc : c = .slash
      · subst hc
        cases cur with
        | file =>
          simp only [go, reduceCtorEq, false_iff]
          rintro ⟨k, _, h⟩
          cases h
        | link t =>
          simp only [go, reduceCtorEq, false_iff]
          rintro ⟨k, _, h⟩
          cases h
        | dir s es =>
          simp only [go]
          rw [ih]
          constructor
          · rintro ⟨k, hk, h⟩
            exact ⟨k, hk, .slash h⟩
          · rintro ⟨k, hk, h⟩
            cases h with
            | slash h => exact ⟨k, hk, h⟩
      cases cur with
      | file =>
        simp only [go, reduceCtorEq, false_iff]
        rintro ⟨k, _, h⟩
        cases h
      | link t =>
        simp only [go, reduceCtorEq, false_iff]
        rintro ⟨k, _, h⟩
        cases h
      | dir s es =>
        cases s with
        | false =>
          simp only [go, reduceCtorEq, false_iff]
          rintro ⟨k, _, h⟩
          cases h
          exact hc rfl
        | true =>
          cases c with
          | slash => exact absurd rfl hc
          | here =>
            simp only [go]
            rw [ih]
            constructor
            · rintro ⟨k, hk, h⟩
              exact ⟨k, hk, .here h⟩
            · rintro ⟨k, hk, h⟩
              cases h with
              | here h => exact ⟨k, hk, h⟩
          | up =>
            simp only [go]
            rw [ih]
            cases above with
            | nil =>
              simp only [if_true]
              constructor
              · rintro ⟨k, hk, h⟩
                exact ⟨k, hk, .top h⟩
              · rintro ⟨k, hk, h⟩
                cases h with
                | top h => exact ⟨k, hk, h⟩
            | cons d above =>
              simp only [reduceCtorEq, if_false]
              constructor
              · rintro ⟨k, hk, h⟩
                exact ⟨k, hk, .up h⟩
              · rintro ⟨k, hk, h⟩
                cases h with
                | up h => exact ⟨k, hk, h⟩
          | name n =>
            simp only [go]
            by_cases hn : n.length > 255
            · rw [if_pos hn]
              simp only [reduceCtorEq, false_iff]
              rintro ⟨k, _, h⟩
              cases h with
              | name h1 => omega
              | link h1 => omega
            · rw [if_neg hn]
              cases hl : es.lookup n with
              | none =>
                simp only [reduceCtorEq, false_iff]
                rintro ⟨k, _, h⟩
                cases h with
                | name _ h1 => rw [hl] at h1; simp at h1
                | link _ h1 => rw [hl] at h1; simp at h1
              | some y =>
                have other : (∀ t, y ≠ .link t) → (go root follow (y :: .dir true es :: above) cs = .ok x ↔
                    ∃ k, lim k ∧ Leads root (.dir true es :: above) (.name n :: cs) x k) := by
                  intro hy
                  rw [ih]
                  constructor
                  · rintro ⟨k, hk, h⟩
                    exact ⟨k, hk, .name (by omega) hl hy h⟩
                  · rintro ⟨k, hk, h⟩
                    cases h with
                    | name _ h1 _ h2 =>
                      rw [hl] at h1
                      obtain rfl := Option.some.inj h1
                      exact ⟨k, hk, h2⟩
                    | link _ h1 =>
                      rw [hl] at h1
                      exact absurd (Option.some.inj h1) (hy _)
                cases y with
                | file => exact other (by simp)
                | dir s' es' => exact other (by simp)
                | link t =>
                  simp only []
                  by_cases ht : t = []
                  · rw [if_pos ht]
                    simp only [reduceCtorEq, false_iff]
                    rintro ⟨k, _, h⟩
                    cases h with
                    | name _ h1 h2 =>
                      rw [hl] at h1
                      exact h2 _ (Option.some.inj h1).symm
                    | link _ h1 h2 =>
                      rw [hl] at h1
                      obtain rfl := Node.link.inj (Option.some.inj h1)
                      exact h2 ht
                  · rw [if_neg ht, hf]
                    constructor
                    · rintro ⟨k, hk, h⟩
                      exact ⟨k + 1, hk, .link (by omega) hl ht ((path_iff _ _).2 rfl) ((from_iff _ _ _ _).2 rfl) h⟩
                    · rintro ⟨k, hk, h⟩
                      cases h with
                      | name _ h1 h2 =>
                        rw [hl] at h1
                        exact absurd (Option.some.inj h1).symm (h2 _)
                      | link _ h1 h2 hp hq h3 =>
                        rw [hl] at h1
                        obtain rfl := Node.link.inj (Option.some.inj h1)
                        rw [(path_iff _ _).1 hp, (from_iff _ _ _ _).1 hq] at h3
                        exact ⟨_, hk, h3⟩

theorem walk_iff (root : List Node) : ∀ (n : Nat) (place : List Node) (cs : List Comp) (x : Node),
    walk root n place cs = .ok x ↔ ∃ k, k ≤ n ∧ Leads root place cs x k
  | 0, place, cs, x => go_iff root _ (fun k => k ≤ 0) (by simp) (by simp) cs place x
  | n + 1, place, cs, x => go_iff root _ (fun k => k ≤ n + 1) (fun place cs x => by simp [walk_iff root n place cs x]) (by simp) cs place x

theorem go_error (root : List Node) (follow : List Node → List Comp → Except Errno Node)
    (hf : ∀ place cs e, follow place cs = .error e → isExist e = false) :
    ∀ (cs : List Comp) (place : List Node) (e : Errno), go root follow place cs = .error e → isExist e = false := by
  intro cs
  induction cs with
  | nil =>
    intro place e h
    cases place <;> simp [go] at h
    subst h
    rfl
  | cons c cs ih =>
    intro place e h
    cases place with
    | nil =>
      simp [go] at h
      subst h
      rfl
    | cons cur above =>
      by_cases hc : c = .slash
      · subst hc
        cases cur with
        | file => simp [go] at h; subst h; rfl
        | link t => simp [go] at h; subst h; rfl
        | dir s es => exact ih _ _ (by simpa only [go] using h)
      cases cur with
      | file => simp [go] at h; subst h; rfl
      | link t => simp [go] at h; subst h; rfl
      | dir s es =>
        cases s with
        | false => simp [go] at h; subst h; rfl
        | true =>
          cases c with
          | slash => exact absurd rfl hc
          | here => exact ih _ _ (by simpa only [go] using h)
          | up => exact ih _ _ (by simpa only [go] using h)
          | name n =>
            simp only [go] at h
            split at h
            · simp at h; subst h; rfl
            · split at h
              · simp at h; subst h; rfl
              · split at h
                · simp at h; subst h; rfl
                · exact hf _ _ _ h
              · exact ih _ _ h

theorem walk_error (root : List Node) : ∀ (n : Nat) (place : List Node) (cs : List Comp) (e : Errno),
    walk root n place cs = .error e → isExist e = false
  | 0, place, cs, e, h => go_error root _ (by rintro _ _ e h; simp at h; subst h; rfl) cs place e h
  | n + 1, place, cs, e, h => go_error root _ (walk_error root n) cs place e h

end Gofer.FileExistProof
