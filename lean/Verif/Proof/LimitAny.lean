import Verif.Model.LimitAny
import Verif.Proof.Count
/-! Invariant of `LimitLock` with any calls of `Unlock`, for `Verif/Props/LimitAny.lean`. -/
namespace Gofer.LimitAny
open Gofer.Count

/-- `Lock`s that have sent. -/
def took : Pc → Bool
  | .sent | .held | .over => true
  | _ => false
/-- `Unlock`s that have received. -/
def gave : Pc → Bool
  | .received _ | .returned _ => true
  | _ => false
def counted : Pc → Bool
  | .held | .over => true
  | _ => false
def counted' : Pc → Bool
  | .returned _ => true
  | _ => false
def isOver : Pc → Bool
  | .over => true
  | _ => false
/-- `Unlock`s of goroutines that have the lock. -/
def own : Pc → Bool
  | .unlock true | .received true | .returned true => true
  | _ => false

structure Inv (limit : Nat) (s : St) : Prop where
  le : s.ch ≤ limit
  ch : s.ch + s.log.countP gave = s.log.countP took
  count : s.count = BitVec.ofNat 64 (s.log.countP counted)
  count' : s.count' = BitVec.ofNat 64 (s.log.countP counted')
  own : s.log.countP own = s.log.countP isOver

theorem inv_new (limit : Nat) : Inv limit new := by constructor <;> simp [new]

/-- Replacing one entry. -/
theorem cnt_set_eq {p : Pc → Bool} {l : List Pc} {i : Nat} {c c' : Pc} (h : l[i]? = some c) (e : p c' = p c) : (l.set i c').countP p = l.countP p := by
  have := cnt_set (p := p) (c' := c') h
  rw [e] at this
  omega

theorem cnt_set_up {p : Pc → Bool} {l : List Pc} {i : Nat} {c c' : Pc} (h : l[i]? = some c) (e : p c = false) (e' : p c' = true) : (l.set i c').countP p = l.countP p + 1 := by
  have := cnt_set (p := p) (c' := c') h
  simp only [e, e', Bool.toNat_true, Bool.toNat_false] at this
  omega

theorem inv_act {limit : Nat} {s t : St} {a : Act} (h : Inv limit s) (e : act limit s a = some t) : Inv limit t := by
  obtain ⟨le, ch, co, co', ow⟩ := h
  cases a with
  | lock =>
    simp only [act, Option.some.injEq] at e
    subst e
    constructor <;> simp_all [List.countP_append, took, gave, counted, counted', isOver, own]
  | surplus =>
    simp only [act, Option.some.injEq] at e
    subst e
    constructor <;> simp_all [List.countP_append, took, gave, counted, counted', isOver, own]
  | unlock i =>
    simp only [act] at e
    split at e
    · rename_i hi
      simp only [Option.some.injEq] at e
      subst e
      constructor
      · exact le
      · simp only [List.countP_append, cnt_set_eq (p := gave) (c' := .over) hi rfl, cnt_set_eq (p := took) (c' := .over) hi rfl]
        simpa [gave, took] using ch
      · simp only [List.countP_append, cnt_set_eq (p := counted) (c' := .over) hi rfl]
        simpa [counted] using co
      · simp only [List.countP_append, cnt_set_eq (p := counted') (c' := .over) hi rfl]
        simpa [counted'] using co'
      · simp only [List.countP_append, cnt_set_eq (p := own) (c' := .over) hi rfl, cnt_set_up (p := isOver) (c' := .over) hi rfl rfl]
        simpa [own, isOver] using ow
    · simp at e
  | timeout i =>
    simp only [act] at e
    split at e
    · rename_i hi
      simp only [Option.some.injEq] at e
      subst e
      constructor
      · exact le
      · simpa only [cnt_set_eq (p := gave) (c' := .timedOut) hi rfl, cnt_set_eq (p := took) (c' := .timedOut) hi rfl] using ch
      · simpa only [cnt_set_eq (p := counted) (c' := .timedOut) hi rfl] using co
      · simpa only [cnt_set_eq (p := counted') (c' := .timedOut) hi rfl] using co'
      · simpa only [cnt_set_eq (p := own) (c' := .timedOut) hi rfl, cnt_set_eq (p := isOver) (c' := .timedOut) hi rfl] using ow
    · simp at e
  | meet i j =>
    simp only [act] at e
    split at e
    · rename_i hc
      obtain ⟨hz, hi⟩ := hc
      cases hj : s.log[j]? with
      | none => simp [hj] at e
      | some c =>
        simp only [hj, Option.bind_some] at e
        cases c with
        | unlock o =>
          simp only [meet, Option.some.injEq] at e
          subst e
          have hij : i ≠ j := by
            rintro rfl
            rw [hi] at hj
            simp at hj
          have hj' : (s.log.set i .sent)[j]? = some (.unlock o) := by rw [List.getElem?_set_ne hij]; exact hj
          constructor
          · exact le
          · simp only [cnt_set_up (p := gave) (c' := .received o) hj' rfl rfl, cnt_set_eq (p := took) (c' := .received o) hj' rfl,
              cnt_set_eq (p := gave) (c' := .sent) hi rfl, cnt_set_up (p := took) (c' := .sent) hi rfl rfl]
            omega
          · simpa only [cnt_set_eq (p := counted) (c' := .received o) hj' rfl, cnt_set_eq (p := counted) (c' := .sent) hi rfl] using co
          · simpa only [cnt_set_eq (p := counted') (c' := .received o) hj' rfl, cnt_set_eq (p := counted') (c' := .sent) hi rfl] using co'
          · have : own (.received o) = own (.unlock o) := by cases o <;> rfl
            simpa only [cnt_set_eq (p := own) (c' := .received o) hj' this, cnt_set_eq (p := own) (c' := .sent) hi rfl,
              cnt_set_eq (p := isOver) (c' := .received o) hj' rfl, cnt_set_eq (p := isOver) (c' := .sent) hi rfl] using ow
        | _ => simp [meet] at e
    · simp at e
  | step i =>
    simp only [act] at e
    cases hi : s.log[i]? with
    | none => simp [hi] at e
    | some c =>
      simp only [hi, Option.bind_some] at e
      cases c with
      | select =>
        simp only [step] at e
        split at e
        · rename_i hl
          simp only [Option.some.injEq] at e
          subst e
          constructor
          · show s.ch + 1 ≤ limit; omega
          · simp only [cnt_set_eq (p := gave) (c' := .sent) hi rfl, cnt_set_up (p := took) (c' := .sent) hi rfl rfl]
            omega
          · simpa only [cnt_set_eq (p := counted) (c' := .sent) hi rfl] using co
          · simpa only [cnt_set_eq (p := counted') (c' := .sent) hi rfl] using co'
          · simpa only [cnt_set_eq (p := own) (c' := .sent) hi rfl, cnt_set_eq (p := isOver) (c' := .sent) hi rfl] using ow
        · simp at e
      | sent =>
        simp only [step, Option.some.injEq] at e
        subst e
        constructor
        · exact le
        · simpa only [cnt_set_eq (p := gave) (c' := .held) hi rfl, cnt_set_eq (p := took) (c' := .held) hi rfl] using ch
        · simp only [cnt_set_up (p := counted) (c' := .held) hi rfl rfl, co]
          simp [BitVec.ofNat_add]
        · simpa only [cnt_set_eq (p := counted') (c' := .held) hi rfl] using co'
        · simpa only [cnt_set_eq (p := own) (c' := .held) hi rfl, cnt_set_eq (p := isOver) (c' := .held) hi rfl] using ow
      | unlock o =>
        simp only [step] at e
        split at e
        · rename_i hl
          simp only [Option.some.injEq] at e
          subst e
          have this : own (.received o) = own (.unlock o) := by cases o <;> rfl
          constructor
          · show s.ch - 1 ≤ limit; omega
          · simp only [cnt_set_up (p := gave) (c' := .received o) hi rfl rfl, cnt_set_eq (p := took) (c' := .received o) hi rfl]
            omega
          · simpa only [cnt_set_eq (p := counted) (c' := .received o) hi rfl] using co
          · simpa only [cnt_set_eq (p := counted') (c' := .received o) hi rfl] using co'
          · simpa only [cnt_set_eq (p := own) (c' := .received o) hi this, cnt_set_eq (p := isOver) (c' := .received o) hi rfl] using ow
        · simp at e
      | received o =>
        simp only [step, Option.some.injEq] at e
        subst e
        have this : own (.returned o) = own (.received o) := by cases o <;> rfl
        constructor
        · exact le
        · simpa only [cnt_set_eq (p := gave) (c' := .returned o) hi rfl, cnt_set_eq (p := took) (c' := .returned o) hi rfl] using ch
        · simpa only [cnt_set_eq (p := counted) (c' := .returned o) hi rfl] using co
        · simp only [cnt_set_up (p := counted') (c' := .returned o) hi rfl rfl, co']
          simp [BitVec.ofNat_add]
        · simpa only [cnt_set_eq (p := own) (c' := .returned o) hi this, cnt_set_eq (p := isOver) (c' := .returned o) hi rfl] using ow
      | held => simp [step] at e
      | over => simp [step] at e
      | timedOut => simp [step] at e
      | returned o => simp [step] at e

theorem inv_exec {limit : Nat} {s t : St} {as : List Act} (h : Inv limit s) (e : exec limit s as = some t) : Inv limit t := by
  induction as generalizing s with
  | nil =>
    simp only [exec, Option.some.injEq] at e
    rw [← e]
    exact h
  | cons a as ih =>
    simp only [exec] at e
    cases ha : act limit s a with
    | none => simp [ha] at e
    | some u =>
      simp only [ha, Option.bind_some] at e
      exact ih (inv_act h ha) e

theorem lt_cnt {p q : Pc → Bool} {l : List Pc} {i : Nat} {c : Pc} (hi : l[i]? = some c) (h : ∀ a ∈ l, p a = true → q a = true) (hq : q c = true) (hp : p c = false) :
    l.countP p + 1 ≤ l.countP q := by
  induction l generalizing i with
  | nil => simp at hi
  | cons x xs ih =>
    have hx := h x (by simp)
    cases i with
    | zero =>
      simp only [List.getElem?_cons_zero, Option.some.injEq] at hi
      subst hi
      have : xs.countP p ≤ xs.countP q := List.countP_mono_left fun a ha => h a (by simp [ha])
      simp [List.countP_cons, hq, hp, this]
    | succ i =>
      simp only [List.getElem?_cons_succ] at hi
      have := ih hi fun a ha => h a (by simp [ha])
      simp only [List.countP_cons]
      cases hpx : p x <;> cases hqx : q x <;> simp_all <;> omega

end Gofer.LimitAny
