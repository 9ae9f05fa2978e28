import Verif.Model.Pool

namespace Gofer.Pool
open Gofer.Spec.Pool
variable {α : Type}

structure Inv (s : St α) (used : List Nat) : Prop where
  nodup : s.bag.Nodup
  disj : ∀ p ∈ used, p ∉ s.bag
  bag : ∀ p ∈ s.bag, p < s.next
  ult : ∀ p ∈ used, p < s.next
  unodup : used.Nodup
  vars : ∀ v p, s.vars v = some p → p < s.next

theorem mem_eraseIdx {l : List Nat} {i p : Nat} (h : p ∈ l.eraseIdx i) : p ∈ l := List.mem_of_mem_eraseIdx h

theorem not_mem_eraseIdx {l : List Nat} {i p : Nat} (hn : l.Nodup) (h : l[i]? = some p) : p ∉ l.eraseIdx i := by
  induction l generalizing i with
  | nil => simp at h
  | cons a l ih =>
    rw [List.nodup_cons] at hn
    cases i with
    | zero => simp only [List.getElem?_cons_zero, Option.some.injEq] at h; subst h; simpa using hn.1
    | succ i =>
      simp only [List.getElem?_cons_succ] at h
      rw [List.eraseIdx_cons_succ, List.mem_cons, not_or]
      exact ⟨fun e => hn.1 (e ▸ List.mem_of_getElem? h), ih hn.2 h⟩

theorem exec_exclusive (P : Params α) (as : List (Act α)) (s s' : St α) (es : List (Event α)) (used : List Nat) (h : Inv s used)
    (he : exec P s as = some (s', es)) (hd : Disciplined used es) : Exclusive used es := by
  induction as generalizing s es used with
  | nil => simp only [exec, Option.some.injEq, Prod.mk.injEq] at he; rw [← he.2]; trivial
  | cons a as ih =>
    simp only [exec] at he
    cases ha : act P s a with
    | none => simp [ha] at he
    | some r =>
      obtain ⟨s1, e1⟩ := r
      simp only [ha] at he
      cases hr : exec P s1 as with
      | none => simp [hr] at he
      | some r2 =>
        obtain ⟨s2, e2⟩ := r2
        simp only [hr, Option.some.injEq, Prod.mk.injEq] at he
        obtain ⟨rfl, rfl⟩ := he
        have rel : ∀ p (s0 : St α), p < s.next → s0.next = s.next → s0.bag = p :: s.bag → (∀ v q, s0.vars v = some q → q < s.next) →
            p ∈ used → Inv s0 (used.erase p) := by
          intro p s0 hp hn hb hv hu
          refine ⟨?_, ?_, ?_, ?_, h.unodup.erase p, by rw [hn]; exact hv⟩
          · rw [hb, List.nodup_cons]; exact ⟨h.disj p hu, h.nodup⟩
          · intro q hq
            rw [hb, List.mem_cons, not_or]
            exact ⟨fun e => by subst e; exact (h.unodup.not_mem_erase) hq, h.disj q (List.mem_of_mem_erase hq)⟩
          · intro q hq
            rw [hb] at hq; rw [hn]
            rcases List.mem_cons.1 hq with rfl | hq
            · exact hp
            · exact h.bag q hq
          · intro q hq; rw [hn]; exact h.ult q (List.mem_of_mem_erase hq)
        have nxt : ∀ u, Inv s1 u → Disciplined u e2 → Exclusive u e2 := fun u hi hd => ih s1 e2 u hi hr hd
        cases a with
        | get v i =>
          cases i with
          | none =>
            simp only [act, get, take, Option.some.injEq, Prod.mk.injEq] at ha
            obtain ⟨rfl, rfl⟩ := ha
            simp only [List.cons_append, List.nil_append] at hd ⊢
            have hf : s.next ∉ used := fun hm => Nat.lt_irrefl _ (h.ult _ hm)
            refine ⟨hf, nxt _ ⟨h.nodup, ?_, ?_, ?_, ?_, ?_⟩ hd⟩
            · intro p hp hb
              rcases List.mem_cons.1 hp with rfl | hp
              · exact Nat.lt_irrefl _ (h.bag _ hb)
              · exact h.disj p hp hb
            · intro p hp; exact Nat.lt_succ_of_lt (h.bag p hp)
            · intro p hp
              rcases List.mem_cons.1 hp with rfl | hp
              · exact Nat.lt_succ_self _
              · exact Nat.lt_succ_of_lt (h.ult p hp)
            · exact List.nodup_cons.2 ⟨hf, h.unodup⟩
            · intro w p hw
              simp only [upd] at hw
              split at hw
              · cases hw; exact Nat.lt_succ_self _
              · exact Nat.lt_succ_of_lt (h.vars w p hw)
          | some i =>
            cases hi : s.bag[i]? with
            | none => simp [act, get, take, hi] at ha
            | some p =>
              simp only [act, get, take, hi, Option.some.injEq, Prod.mk.injEq] at ha
              obtain ⟨rfl, rfl⟩ := ha
              simp only [List.cons_append, List.nil_append] at hd ⊢
              have hm := List.mem_of_getElem? hi
              have hf : p ∉ used := fun hu => h.disj p hu hm
              refine ⟨hf, nxt _ ⟨h.nodup.sublist (List.eraseIdx_sublist _ _), ?_, ?_, ?_, ?_, ?_⟩ hd⟩
              · intro q hq hb
                rcases List.mem_cons.1 hq with rfl | hq
                · exact not_mem_eraseIdx h.nodup hi hb
                · exact h.disj q hq (mem_eraseIdx hb)
              · intro q hq; exact h.bag q (mem_eraseIdx hq)
              · intro q hq
                rcases List.mem_cons.1 hq with rfl | hq
                · exact h.bag _ hm
                · exact h.ult q hq
              · exact List.nodup_cons.2 ⟨hf, h.unodup⟩
              · intro w q hw
                simp only [upd] at hw
                split at hw
                · cases hw; exact h.bag _ hm
                · exact h.vars w q hw
        | put v =>
          cases hv : s.vars v with
          | none =>
            simp only [act, put, hv, Option.some.injEq, Prod.mk.injEq] at ha
            obtain ⟨rfl, rfl⟩ := ha
            exact nxt _ h hd
          | some p =>
            simp only [act, put, hv, Option.some.injEq, Prod.mk.injEq] at ha
            obtain ⟨rfl, rfl⟩ := ha
            refine nxt _ (rel p _ (h.vars v p hv) rfl rfl ?_ hd.1) hd.2
            intro w q hw
            simp only [upd] at hw
            split at hw
            · cases hw
            · exact h.vars w q hw
        | free v =>
          cases hv : s.vars v with
          | none =>
            simp only [act, free, hv, Option.some.injEq, Prod.mk.injEq] at ha
            obtain ⟨rfl, rfl⟩ := ha
            exact nxt _ h hd
          | some p =>
            simp only [act, free, hv, Option.some.injEq, Prod.mk.injEq] at ha
            obtain ⟨rfl, rfl⟩ := ha
            exact nxt _ (rel p _ (h.vars v p hv) rfl rfl h.vars hd.1) hd.2
        | assign v w =>
          simp only [act, Option.some.injEq, Prod.mk.injEq] at ha
          obtain ⟨rfl, rfl⟩ := ha
          refine nxt _ ⟨h.nodup, h.disj, h.bag, h.ult, h.unodup, ?_⟩ hd
          intro x q hx
          simp only [upd] at hx
          split at hx
          · exact h.vars w q hx
          · exact h.vars x q hx
        | use v c =>
          cases hv : s.vars v with
          | none =>
            simp only [act, hv, Option.some.injEq, Prod.mk.injEq] at ha
            obtain ⟨rfl, rfl⟩ := ha
            exact nxt _ h hd
          | some p =>
            simp only [act, hv, Option.some.injEq, Prod.mk.injEq] at ha
            obtain ⟨rfl, rfl⟩ := ha
            exact nxt _ ⟨h.nodup, h.disj, h.bag, h.ult, h.unodup, h.vars⟩ hd
        | drop i =>
          simp only [act] at ha
          split at ha
          · simp only [Option.some.injEq, Prod.mk.injEq] at ha
            obtain ⟨rfl, rfl⟩ := ha
            exact nxt _ ⟨h.nodup.sublist (List.eraseIdx_sublist _ _), fun p hp hb => h.disj p hp (mem_eraseIdx hb),
              fun p hp => h.bag p (mem_eraseIdx hp), h.ult, h.unodup, h.vars⟩ hd
          · cases ha

theorem inv_init (P : Params α) : Inv (init P) [] :=
  ⟨List.nodup_nil, by simp, by simp [init], by simp, List.nodup_nil, by simp [init]⟩

/-! ### Programs that only use `Get` and `Put` -/

/-- Variables hold different objects, all of them in use. -/
structure PInv (s : St α) (used : List Nat) : Prop where
  inj : ∀ v w p, s.vars v = some p → s.vars w = some p → v = w
  mem : ∀ v p, s.vars v = some p → p ∈ used
  lt : ∀ p ∈ used, p < s.next
  bag : ∀ p ∈ used, p ∉ s.bag
  nodup : s.bag.Nodup
  blt : ∀ p ∈ s.bag, p < s.next
  unodup : used.Nodup

theorem exec_plain (P : Params α) (as : List (Act α)) (s s' : St α) (es : List (Event α)) (used : List Nat) (h : PInv s used)
    (he : exec P s as = some (s', es)) (hp : ∀ a ∈ as, Plain a) : Disciplined used es := by
  induction as generalizing s es used with
  | nil => simp only [exec, Option.some.injEq, Prod.mk.injEq] at he; rw [← he.2]; trivial
  | cons a as ih =>
    have hp' : ∀ a ∈ as, Plain a := fun b hb => hp b (List.mem_cons_of_mem _ hb)
    have ha0 := hp a (by simp)
    simp only [exec] at he
    cases ha : act P s a with
    | none => simp [ha] at he
    | some r =>
      obtain ⟨s1, e1⟩ := r
      simp only [ha] at he
      cases hr : exec P s1 as with
      | none => simp [hr] at he
      | some r2 =>
        obtain ⟨s2, e2⟩ := r2
        simp only [hr, Option.some.injEq, Prod.mk.injEq] at he
        obtain ⟨rfl, rfl⟩ := he
        have hget : ∀ p v (s0 : St α), p ∉ used → s0.vars = upd s.vars v (some p) → p < s0.next → s.next ≤ s0.next → p ∉ s0.bag →
            (∀ q ∈ s0.bag, q ∈ s.bag) → s0.bag.Nodup → PInv s0 (p :: used) := by
          intro p v s0 hpu hv hlt hle hpb hb hn
          refine ⟨?_, ?_, ?_, ?_, hn, fun q hq => Nat.lt_of_lt_of_le (h.blt q (hb q hq)) hle, List.nodup_cons.2 ⟨hpu, h.unodup⟩⟩
          · intro x y q hx hy
            rw [hv] at hx hy
            simp only [upd] at hx hy
            split at hx <;> split at hy
            · rename_i e1 e2; rw [e1, e2]
            · cases hx; exact absurd (h.mem y _ hy) hpu
            · cases hy; exact absurd (h.mem x _ hx) hpu
            · exact h.inj x y q hx hy
          · intro x q hx
            rw [hv] at hx
            simp only [upd] at hx
            split at hx
            · cases hx; exact List.mem_cons_self ..
            · exact List.mem_cons_of_mem _ (h.mem x q hx)
          · intro q hq
            rcases List.mem_cons.1 hq with rfl | hq
            · exact hlt
            · exact Nat.lt_of_lt_of_le (h.lt q hq) hle
          · intro q hq hqb
            rcases List.mem_cons.1 hq with rfl | hq
            · exact hpb hqb
            · exact h.bag q hq (hb q hqb)
        have nxt : ∀ u, PInv s1 u → Disciplined u e2 := fun u hi => ih s1 e2 u hi hr hp'
        cases a with
        | get v i =>
          cases i with
          | none =>
            simp only [act, get, take, Option.some.injEq, Prod.mk.injEq] at ha
            obtain ⟨rfl, rfl⟩ := ha
            exact nxt _ (hget s.next v _ (fun hm => Nat.lt_irrefl _ (h.lt _ hm)) rfl (Nat.lt_succ_self _) (Nat.le_succ _)
              (fun hm => Nat.lt_irrefl _ (h.blt _ hm)) (fun q hq => hq) h.nodup)
          | some i =>
            cases hi : s.bag[i]? with
            | none => simp [act, get, take, hi] at ha
            | some p =>
              simp only [act, get, take, hi, Option.some.injEq, Prod.mk.injEq] at ha
              obtain ⟨rfl, rfl⟩ := ha
              have hm := List.mem_of_getElem? hi
              exact nxt _ (hget p v _ (fun hu => h.bag p hu hm) rfl (h.blt p hm) (Nat.le_refl _) (not_mem_eraseIdx h.nodup hi)
                (fun q hq => mem_eraseIdx hq) (h.nodup.sublist (List.eraseIdx_sublist _ _)))
        | put v =>
          cases hv : s.vars v with
          | none =>
            simp only [act, put, hv, Option.some.injEq, Prod.mk.injEq] at ha
            obtain ⟨rfl, rfl⟩ := ha
            exact nxt _ h
          | some p =>
            simp only [act, put, hv, Option.some.injEq, Prod.mk.injEq] at ha
            obtain ⟨rfl, rfl⟩ := ha
            have hu := h.mem v p hv
            refine ⟨hu, nxt _ ⟨?_, ?_, ?_, ?_, ?_, ?_, h.unodup.erase p⟩⟩
            · intro x y q hx hy
              simp only [upd] at hx hy
              split at hx
              · cases hx
              · split at hy
                · cases hy
                · exact h.inj x y q hx hy
            · intro x q hx
              simp only [upd] at hx
              split at hx
              · cases hx
              · rename_i hne
                refine (List.mem_erase_of_ne ?_).2 (h.mem x q hx)
                rintro rfl
                exact hne (h.inj x v q hx hv)
            · intro q hq; exact h.lt q (List.mem_of_mem_erase hq)
            · intro q hq
              rw [List.mem_cons, not_or]
              exact ⟨fun e => by subst e; exact (h.unodup.not_mem_erase) hq, h.bag q (List.mem_of_mem_erase hq)⟩
            · exact List.nodup_cons.2 ⟨h.bag p hu, h.nodup⟩
            · intro q hq
              rcases List.mem_cons.1 hq with rfl | hq
              · exact h.lt _ hu
              · exact h.blt q hq
        | free v => exact ha0.elim
        | assign v w => exact ha0.elim
        | use v c =>
          cases hv : s.vars v with
          | none =>
            simp only [act, hv, Option.some.injEq, Prod.mk.injEq] at ha
            obtain ⟨rfl, rfl⟩ := ha
            exact nxt _ h
          | some p =>
            simp only [act, hv, Option.some.injEq, Prod.mk.injEq] at ha
            obtain ⟨rfl, rfl⟩ := ha
            exact nxt _ ⟨h.inj, h.mem, h.lt, h.bag, h.nodup, h.blt, h.unodup⟩
        | drop i =>
          simp only [act] at ha
          split at ha
          · simp only [Option.some.injEq, Prod.mk.injEq] at ha
            obtain ⟨rfl, rfl⟩ := ha
            exact nxt _ ⟨h.inj, h.mem, h.lt, fun p hp hb => h.bag p hp (mem_eraseIdx hb), h.nodup.sublist (List.eraseIdx_sublist _ _),
              fun p hp => h.blt p (mem_eraseIdx hp), h.unodup⟩
          · cases ha

theorem pinv_init (P : Params α) : PInv (init P) [] :=
  ⟨by simp [init], by simp [init], by simp, by simp, List.nodup_nil, by simp [init], List.nodup_nil⟩

/-- Whatever is handed out has just been reset. -/
theorem exec_reset (P : Params α) (f : α → α) (hf : P.reset = some f) (as : List (Act α)) (s s' : St α) (es : List (Event α))
    (he : exec P s as = some (s', es)) : ∀ p c, Event.got p c ∈ es → ∃ x, c = f x := by
  induction as generalizing s es with
  | nil => simp only [exec, Option.some.injEq, Prod.mk.injEq] at he; rw [← he.2]; simp
  | cons a as ih =>
    simp only [exec] at he
    cases ha : act P s a with
    | none => simp [ha] at he
    | some r =>
      obtain ⟨s1, e1⟩ := r
      simp only [ha] at he
      cases hr : exec P s1 as with
      | none => simp [hr] at he
      | some r2 =>
        obtain ⟨s2, e2⟩ := r2
        simp only [hr, Option.some.injEq, Prod.mk.injEq] at he
        obtain ⟨rfl, rfl⟩ := he
        intro p c hm
        rcases List.mem_append.1 hm with hm | hm
        · cases a with
          | get v i =>
            simp only [act, get] at ha
            cases ht : take P s i with
            | none => simp [ht] at ha
            | some r =>
              obtain ⟨q, s0⟩ := r
              simp only [ht, hf, Option.some.injEq, Prod.mk.injEq] at ha
              rw [← ha.2] at hm
              simp only [List.mem_singleton, Event.got.injEq] at hm
              exact ⟨s0.heap q, by rw [hm.2]; simp [upd]⟩
          | put v =>
            simp only [act, put] at ha
            cases hv : s.vars v <;> simp only [hv, Option.some.injEq, Prod.mk.injEq] at ha <;> rw [← ha.2] at hm <;> simp at hm
          | free v =>
            simp only [act, free] at ha
            cases hv : s.vars v <;> simp only [hv, Option.some.injEq, Prod.mk.injEq] at ha <;> rw [← ha.2] at hm <;> simp at hm
          | assign v w =>
            simp only [act, Option.some.injEq, Prod.mk.injEq] at ha
            rw [← ha.2] at hm; simp at hm
          | use v x =>
            simp only [act] at ha
            cases hv : s.vars v <;> simp only [hv, Option.some.injEq, Prod.mk.injEq] at ha <;> rw [← ha.2] at hm <;> simp at hm
          | drop i =>
            simp only [act] at ha
            split at ha
            · simp only [Option.some.injEq, Prod.mk.injEq] at ha
              rw [← ha.2] at hm; simp at hm
            · cases ha
        · exact ih _ _ hr p c hm

/-! ### Routing -/

theorem routeFrom_zero (len : BitVec 64) (vs : List (BitVec 64)) (i : Nat) (h : ∀ v ∈ vs, v.sle len = false) : routeFrom len i vs = 0 := by
  induction vs generalizing i with
  | nil => rfl
  | cons v vs ih =>
    rw [routeFrom, h v (by simp)]
    exact ih _ fun w hw => h w (List.mem_cons_of_mem _ hw)

theorem routeFrom_append (len : BitVec 64) (vs ws : List (BitVec 64)) (w : BitVec 64) (i : Nat) (h : ∀ v ∈ vs, v.sle len = false)
    (hw : w.sle len = true) : routeFrom len i (vs ++ w :: ws) = i + vs.length := by
  induction vs generalizing i with
  | nil => simp [routeFrom, hw]
  | cons v vs ih =>
    rw [List.cons_append, routeFrom, h v (by simp)]
    rw [List.length_cons, show i + (vs.length + 1) = i + 1 + vs.length by omega]
    exact ih _ fun u hu => h u (List.mem_cons_of_mem _ hu)

theorem routerEntry_toInt {i : Nat} (h : i < 60) : (routerEntry i).toInt = 8 * 2 ^ i := by
  have hd : ∀ i : Fin 60, (routerEntry i.val).toInt = ((8 * 2 ^ i.val : Nat) : Int) := by decide +kernel
  have := hd ⟨i, h⟩
  rw [this]
  push_cast
  rfl

end Gofer.Pool
