import Verif.Spec.Bits
import Mathlib.Logic.Function.Iterate
import Mathlib.Dynamics.PeriodicPts.Defs
import Mathlib.Tactic.Ring
import Mathlib.Data.Nat.Prime.Basic
import Mathlib.Data.Nat.Factors

/-!
Reflected CRC registers of any width.
-/
namespace Gofer.CrcGen
open Gofer.Spec.Bits

variable {w : Nat}

/-- One bit step of a reflected register. -/
def step (p c : BitVec w) : BitVec w := if c.getLsbD 0 then (c >>> 1) ^^^ p else c >>> 1

/-- A bit as a word. -/
def bit (w : Nat) (b : Bool) : BitVec w := if b then 1#w else 0#w

/-- Feed one message bit. -/
def feed (p c : BitVec w) (b : Bool) : BitVec w := step p (c ^^^ bit w b)

def run (p c : BitVec w) (bs : List Bool) : BitVec w := bs.foldl (feed p) c

theorem xor_xor_xor_comm (a b c d : BitVec w) : (a ^^^ b) ^^^ (c ^^^ d) = (a ^^^ c) ^^^ (b ^^^ d) := by
  rw [BitVec.xor_assoc, BitVec.xor_assoc, ← BitVec.xor_assoc b, BitVec.xor_comm b c, BitVec.xor_assoc]

theorem step_xor (p x y : BitVec w) : step p (x ^^^ y) = step p x ^^^ step p y := by
  unfold step
  rw [BitVec.getLsbD_xor, BitVec.ushiftRight_xor_distrib]
  cases x.getLsbD 0 <;> cases y.getLsbD 0 <;> simp
  · rw [BitVec.xor_assoc]
  · rw [BitVec.xor_assoc, BitVec.xor_assoc, BitVec.xor_comm p]
  · rw [xor_xor_xor_comm]; simp

theorem step_zero (p : BitVec w) : step p 0#w = 0#w := by simp [step]

theorem iter_xor (p : BitVec w) (n : Nat) (x y : BitVec w) :
    (step p)^[n] (x ^^^ y) = (step p)^[n] x ^^^ (step p)^[n] y := by
  induction n generalizing x y with
  | zero => rfl
  | succ n ih => simp only [Function.iterate_succ, Function.comp, step_xor, ih]

theorem iter_zero (p : BitVec w) (n : Nat) : (step p)^[n] 0#w = 0#w :=
  Function.iterate_fixed (step_zero p) n

theorem step_msb (hw : 0 < w) (p : BitVec w) (hp : p.getLsbD (w - 1) = true) (x : BitVec w) :
    (step p x).getLsbD (w - 1) = x.getLsbD 0 := by
  unfold step
  have h1 : (x >>> 1).getLsbD (w - 1) = false := by
    rw [BitVec.getLsbD_ushiftRight]; exact BitVec.getLsbD_of_ge _ _ (by omega)
  cases h : x.getLsbD 0
  · simp [h1]
  · simp only [if_true, BitVec.getLsbD_xor, h1, hp]; rfl

theorem step_inj (hw : 0 < w) (p : BitVec w) (hp : p.getLsbD (w - 1) = true) : Function.Injective (step p) := by
  intro x y h
  have h0 : x.getLsbD 0 = y.getLsbD 0 := by rw [← step_msb hw p hp, ← step_msb hw p hp, h]
  have h1 : x >>> 1 = y >>> 1 := by
    unfold step at h
    rw [h0] at h
    cases hy : y.getLsbD 0
    · rw [hy] at h; simpa using h
    · rw [hy] at h
      simp only [if_true] at h
      exact (BitVec.xor_left_inj _).1 h
  apply BitVec.eq_of_getLsbD_eq
  intro i hi
  cases i with
  | zero => exact h0
  | succ i =>
    have := congrArg (fun z => BitVec.getLsbD z i) h1
    simpa [BitVec.getLsbD_ushiftRight, Nat.add_comm] using this

theorem bit_xor (w : Nat) (a b : Bool) : bit w (a ^^ b) = bit w a ^^^ bit w b := by
  cases a <;> cases b <;> simp [bit]

theorem run_xor (p : BitVec w) (xs ys : List Bool) (h : xs.length = ys.length) (c d : BitVec w) :
    run p (c ^^^ d) (List.zipWith (fun x y => x ^^ y) xs ys) = run p c xs ^^^ run p d ys := by
  induction xs generalizing ys c d with
  | nil => cases ys with
    | nil => rfl
    | cons _ _ => simp at h
  | cons x xs ih => cases ys with
    | nil => simp at h
    | cons y ys =>
      simp only [List.length_cons, Nat.add_right_cancel_iff] at h
      simp only [List.zipWith_cons_cons, run, List.foldl_cons]
      rw [← run, ← run, ← run, ← ih ys h]
      congr 1
      rw [feed, bit_xor, xor_xor_xor_comm, step_xor]; rfl

theorem run_eq_iff (p c : BitVec w) (xs ys : List Bool) (h : xs.length = ys.length) :
    run p c xs = run p c ys ↔ run p 0#w (List.zipWith (fun x y => x ^^ y) xs ys) = 0#w := by
  have := run_xor p xs ys h c c
  rw [BitVec.xor_self] at this
  rw [this]
  constructor
  · intro h; rw [h, BitVec.xor_self]
  · intro h
    have h2 := congrArg (fun z => z ^^^ run p c ys) h
    simpa [BitVec.xor_assoc] using h2

theorem run_append (p c : BitVec w) (xs ys : List Bool) : run p c (xs ++ ys) = run p (run p c xs) ys := by
  simp [run]

theorem run_replicate (p c : BitVec w) (n : Nat) : run p c (List.replicate n false) = (step p)^[n] c := by
  induction n generalizing c with
  | zero => rfl
  | succ n ih =>
    rw [List.replicate_succ, run, List.foldl_cons, ← run, ih, Function.iterate_succ, Function.comp]
    simp [feed, bit]

/-- The word of at most `w` bits. -/
def ofBits (w : Nat) : List Bool → BitVec w
  | [] => 0#w
  | b :: bs => bit w b ^^^ (ofBits w bs <<< 1)

theorem ofBits_get (bs : List Bool) (i : Nat) (hi : i < w) : (ofBits w bs).getLsbD i = bs.getD i false := by
  induction bs generalizing i with
  | nil => simp [ofBits]
  | cons b bs ih =>
    simp only [ofBits, BitVec.getLsbD_xor, BitVec.getLsbD_shiftLeft]
    cases i with
    | zero => cases b <;> simp [bit, hi]
    | succ i =>
      have hb : (bit w b).getLsbD (i + 1) = false := by
        cases b
        · simp [bit]
        · simp only [bit, if_true, BitVec.getLsbD_one]; simp
      rw [hb]
      simp [hi, ih i (by omega)]

theorem step_shl (p W : BitVec w) (h : W.getLsbD (w - 1) = false) : step p (W <<< 1) = W := by
  unfold step
  rw [if_neg (by simp)]
  apply BitVec.eq_of_getLsbD_eq
  intro i hi
  rw [BitVec.getLsbD_ushiftRight, BitVec.getLsbD_shiftLeft]
  by_cases h1 : 1 + i < w
  · simp [h1]
  · have : i = w - 1 := by omega
    subst this; simp [h1, h]

theorem run_short (p c : BitVec w) (bs : List Bool) (h : bs.length ≤ w) :
    run p c bs = (step p)^[bs.length] (c ^^^ ofBits w bs) := by
  induction bs generalizing c with
  | nil => simp [run, ofBits]
  | cons b bs ih =>
    simp only [List.length_cons] at h
    rw [run, List.foldl_cons, ← run, ih _ (by omega), List.length_cons, Function.iterate_succ, Function.comp, ofBits,
      ← BitVec.xor_assoc, step_xor p _ (ofBits w bs <<< 1), step_shl]
    · rfl
    · rw [ofBits_get _ _ (by omega)]
      rw [List.getD_eq_getElem?_getD, List.getElem?_eq_none (by omega)]; rfl

theorem run_inj_state (hw : 0 < w) (p : BitVec w) (hp : p.getLsbD (w - 1) = true) (bs : List Bool) {c d : BitVec w}
    (h : run p c bs = run p d bs) : c = d := by
  induction bs generalizing c d with
  | nil => exact h
  | cons b bs ih =>
    have := step_inj hw p hp (ih h)
    exact (BitVec.xor_left_inj _).1 this

theorem run_zero_of_false (p : BitVec w) (n : Nat) : run p 0#w (List.replicate n false) = 0#w := by
  rw [run_replicate, iter_zero]

/-- A burst of at most `w` bits is not hidden. -/
theorem burst (hw : 0 < w) (p : BitVec w) (hp : p.getLsbD (w - 1) = true) (i k : Nat) (x : List Bool)
    (hx : x.length ≤ w) (h : run p 0#w (List.replicate i false ++ x ++ List.replicate k false) = 0#w) :
    x = List.replicate x.length false := by
  rw [run_append, run_append, run_zero_of_false] at h
  have h1 : run p 0#w x = 0#w := run_inj_state hw p hp (List.replicate k false) (by rw [h, run_zero_of_false])
  rw [run_short p _ x hx, BitVec.zero_xor] at h1
  have h2 : ofBits w x = 0#w := (step_inj hw p hp).iterate x.length (h1.trans (iter_zero p _).symm)
  apply List.ext_getElem?
  intro n
  by_cases hn : n < x.length
  · have := ofBits_get x n (lt_of_lt_of_le hn hx)
    rw [h2, List.getD_eq_getElem?_getD] at this
    rw [List.getElem?_eq_getElem hn] at this ⊢
    rw [List.getElem?_replicate, if_pos hn]
    simp at this
    rw [← this]
  · rw [List.getElem?_eq_none (by omega), List.getElem?_eq_none (by simp; omega)]

/-- Two flipped bits at distance `m + 1` are hidden exactly when the register comes back to 1. -/
theorem twobit (hw : 0 < w) (p : BitVec w) (hp : p.getLsbD (w - 1) = true) (i m k : Nat) :
    run p 0#w (List.replicate i false ++ [true] ++ List.replicate m false ++ [true] ++ List.replicate k false) = 0#w ↔
      (step p)^[m + 1] 1#w = 1#w := by
  rw [run_append, run_append, run_append, run_append, run_zero_of_false, run_replicate, run_replicate]
  have e1 : run p 0#w [true] = step p 1#w := by simp [run, feed, bit]
  have e2 : ∀ c, run p c [true] = step p (c ^^^ 1#w) := by intro c; simp [run, feed, bit]
  rw [e1, e2, ← Function.comp_apply (f := (step p)^[m]), ← Function.iterate_succ]
  constructor
  · intro h
    have h1 := (step_inj hw p hp).iterate k (h.trans (iter_zero p k).symm)
    have h2 := step_inj hw p hp (h1.trans (step_zero p).symm)
    have h3 := congrArg (fun z => z ^^^ 1#w) h2
    simpa [BitVec.xor_assoc] using h3
  · intro h
    rw [h, BitVec.xor_self, step_zero, iter_zero]

/-! ## Fast iteration -/

/-- Top bit: the polynomial 1. -/
def top (w : Nat) : BitVec w := 1#w <<< (w - 1)

/-- `u` as a polynomial in the step, applied to `v`; `n` coefficients, starting at bit `w - 1 - i`. -/
def mulAux (p u : BitVec w) : Nat → Nat → BitVec w → BitVec w → BitVec w
  | 0, _, _, r => r
  | n + 1, i, v, r => mulAux p u n (i + 1) (step p v) (if u.getLsbD (w - 1 - i) then r ^^^ v else r)

def mul (p u v : BitVec w) : BitVec w := mulAux p u w 0 v 0#w

theorem mulAux_xor (p u : BitVec w) (n i : Nat) (v v' r r' : BitVec w) :
    mulAux p u n i (v ^^^ v') (r ^^^ r') = mulAux p u n i v r ^^^ mulAux p u n i v' r' := by
  induction n generalizing i v v' r r' with
  | zero => rfl
  | succ n ih =>
    simp only [mulAux]
    rw [step_xor, ← ih]
    congr 1
    split
    · rw [xor_xor_xor_comm]
    · rfl

theorem mulAux_step (p u : BitVec w) (n i : Nat) (v r : BitVec w) :
    mulAux p u n i (step p v) (step p r) = step p (mulAux p u n i v r) := by
  induction n generalizing i v r with
  | zero => rfl
  | succ n ih =>
    simp only [mulAux]
    rw [← ih]
    congr 1
    split
    · rw [step_xor]
    · rfl

theorem mul_iter (p u : BitVec w) (a : Nat) (v : BitVec w) : mul p u ((step p)^[a] v) = (step p)^[a] (mul p u v) := by
  induction a generalizing v with
  | zero => rfl
  | succ a ih =>
    rw [Function.iterate_succ, Function.comp, ih, Function.comp]
    congr 1
    have := mulAux_step p u w 0 v 0#w
    rw [step_zero] at this
    exact this

theorem top_get (i : Nat) (hw : 0 < w) : (top w).getLsbD i = decide (i = w - 1) := by
  unfold top
  rw [BitVec.getLsbD_shiftLeft, BitVec.getLsbD_one]
  by_cases h : i = w - 1
  · subst h; simp; omega
  · simp [h]; omega

theorem step_shift_get (p v : BitVec w) (j : Nat) (hj : 0 < j) (hv : ∀ i, v.getLsbD i = decide (i = j ∧ i < w)) (i : Nat) :
    (step p v).getLsbD i = decide (i = j - 1 ∧ i + 1 < w) := by
  have h0 : v.getLsbD 0 = false := by rw [hv]; simp; omega
  unfold step
  rw [h0]
  simp only [Bool.false_eq_true, if_false]
  rw [BitVec.getLsbD_ushiftRight, hv]
  congr 1
  simp only [eq_iff_iff]; omega

theorem iter_top_get (p : BitVec w) (a : Nat) (ha : a < w) (i : Nat) :
    ((step p)^[a] (top w)).getLsbD i = decide (i = w - 1 - a) := by
  induction a generalizing i with
  | zero => simp [top_get i ha]
  | succ a ih =>
    rw [Function.iterate_succ', Function.comp, step_shift_get p _ (w - 1 - a) (by omega)]
    · congr 1; simp only [eq_iff_iff]; omega
    · intro i; rw [ih (by omega)]; congr 1; simp only [eq_iff_iff]; omega

theorem mulAux_top_get (p u : BitVec w) (n a : Nat) (h : a + n = w) (r : BitVec w) (i : Nat) :
    (mulAux p u n a ((step p)^[a] (top w)) r).getLsbD i = (r.getLsbD i ^^ (decide (i < n) && u.getLsbD i)) := by
  induction n generalizing a r with
  | zero => simp [mulAux]
  | succ n ih =>
    simp only [mulAux]
    rw [← Function.comp_apply (f := step p), ← Function.iterate_succ', ih (a + 1) (by omega)]
    have hi := iter_top_get p a (by omega) i
    by_cases hin : i = n
    · subst hin
      have e : w - 1 - a = i := by omega
      rw [e] at hi ⊢
      cases hu : u.getLsbD i <;> simp [hi]
    · have e : w - 1 - a = n := by omega
      rw [e] at hi ⊢
      simp only [hin, decide_false] at hi
      have e3 : (i < n + 1) = (i < n) := by simp only [eq_iff_iff]; omega
      simp only [e3]
      congr 1
      split
      · simp [hi]
      · rfl

theorem mul_top (p u : BitVec w) : mul p u (top w) = u := by
  apply BitVec.eq_of_getLsbD_eq
  intro i hi
  have := mulAux_top_get p u w 0 (by omega) 0#w i
  simp only [Function.iterate_zero, id] at this
  rw [mul, this]; simp [hi]

/-- `x^n` by squaring, with fuel for the number of binary digits. -/
def xpow (p : BitVec w) : Nat → Nat → BitVec w
  | 0, _ => top w
  | f + 1, n =>
    if n = 0 then top w
    else
      let h := xpow p f (n / 2)
      let s := mul p h h
      if n % 2 = 1 then step p s else s

theorem xpow_eq (p : BitVec w) (f n : Nat) (h : n < 2 ^ f) : xpow p f n = (step p)^[n] (top w) := by
  induction f generalizing n with
  | zero => have : n = 0 := by simpa using h
            subst this; rfl
  | succ f ih =>
    simp only [xpow]
    split
    · rename_i h0; subst h0; rfl
    · rename_i h0
      rw [ih (n / 2) (by rw [pow_succ] at h; omega), mul_iter, mul_top, ← Function.iterate_add_apply]
      split
      · rw [← Function.comp_apply (f := step p), ← Function.iterate_succ']
        congr 2; omega
      · congr 2; omega

theorem iter_one_iff (hw : 0 < w) (p : BitVec w) (hp : p.getLsbD (w - 1) = true) (n : Nat) :
    (step p)^[n] 1#w = 1#w ↔ (step p)^[n] (top w) = top w := by
  have h1 : (step p)^[w - 1] (top w) = 1#w := by
    apply BitVec.eq_of_getLsbD_eq
    intro i hi
    rw [iter_top_get p _ (by omega), BitVec.getLsbD_one]
    by_cases h : i = 0 <;> simp [h]; omega
  rw [← h1, ← Function.iterate_add_apply, Nat.add_comm, Function.iterate_add_apply]
  constructor
  · intro h; exact (step_inj hw p hp).iterate _ h
  · intro h; rw [h]

/-- The period of the register: `N` if `N` steps come back and `N / q` steps do not, for every prime
divisor `q`. -/
theorem period (hw : 0 < w) (p : BitVec w) (hp : p.getLsbD (w - 1) = true) (f N : Nat) (qs : List Nat)
    (hf : N < 2 ^ f) (h1 : xpow p f N = top w) (h2 : ∀ q ∈ qs, xpow p f (N / q) ≠ top w)
    (hq : ∀ q, q.Prime → q ∣ N → q ∈ qs) (n : Nat) :
    (step p)^[n] 1#w = 1#w ↔ N ∣ n := by
  rw [iter_one_iff hw p hp]
  rw [xpow_eq p f N hf] at h1
  have hper : Function.IsPeriodicPt (step p) N (top w) := h1
  have hdvd : Function.minimalPeriod (step p) (top w) ∣ N := hper.minimalPeriod_dvd
  have hmin : Function.minimalPeriod (step p) (top w) = N := by
    obtain ⟨c, hc⟩ := hdvd
    by_cases hc1 : c = 1
    · rw [hc1, mul_one] at hc; exact hc.symm
    · obtain ⟨q, hqp, hqc⟩ := Nat.exists_prime_and_dvd hc1
      have hqN : q ∣ N := hc ▸ Dvd.dvd.mul_left hqc _
      have hlt : N / q < 2 ^ f := lt_of_le_of_lt (Nat.div_le_self _ _) hf
      exfalso
      apply h2 q (hq q hqp hqN)
      rw [xpow_eq p f _ hlt]
      have : Function.minimalPeriod (step p) (top w) ∣ N / q := by
        obtain ⟨c', rfl⟩ := hqc
        refine ⟨c', ?_⟩
        rw [hc, ← mul_assoc, mul_comm _ q, mul_assoc, Nat.mul_div_cancel_left _ hqp.pos]
      exact (Function.isPeriodicPt_iff_minimalPeriod_dvd).2 this
  rw [← hmin]
  exact Function.isPeriodicPt_iff_minimalPeriod_dvd

/-! ## Parity -/

/-- Parity of the low `n` bits. -/
def par (c : BitVec w) : Nat → Bool
  | 0 => false
  | n + 1 => par c n ^^ c.getLsbD n

theorem par_xor (c d : BitVec w) (n : Nat) : par (c ^^^ d) n = (par c n ^^ par d n) := by
  induction n with
  | zero => rfl
  | succ n ih =>
    simp only [par, ih, BitVec.getLsbD_xor]
    cases par c n <;> cases par d n <;> cases c.getLsbD n <;> cases d.getLsbD n <;> rfl

theorem par_shr (c : BitVec w) (n : Nat) : (par (c >>> 1) n ^^ c.getLsbD 0) = par c (n + 1) := by
  induction n with
  | zero => simp [par]
  | succ n ih =>
    rw [par, BitVec.getLsbD_ushiftRight, par, ← ih, Nat.add_comm 1 n]
    cases par (c >>> 1) n <;> cases c.getLsbD (n + 1) <;> cases c.getLsbD 0 <;> rfl

theorem par_step (p c : BitVec w) (hp : par p w = true) : par (step p c) w = par c w := by
  have h := par_shr c w
  have h0 : c.getLsbD w = false := BitVec.getLsbD_of_ge _ _ (le_refl _)
  rw [par, h0, Bool.xor_false] at h
  unfold step
  cases hc : c.getLsbD 0
  · rw [hc] at h; simpa using h
  · rw [hc] at h
    simp only [if_true, par_xor, hp, ← h]

theorem par_zero (n : Nat) : par (0#w) n = false := by
  induction n with
  | zero => rfl
  | succ n ih => simp [par, ih]

theorem par_one (n : Nat) (h : 0 < n) (hw : 0 < w) : par (1#w) n = true := by
  induction n with
  | zero => omega
  | succ n ih =>
    cases n with
    | zero => simp [par]; omega
    | succ n => rw [par, ih (by omega), BitVec.getLsbD_one]; simp

theorem par_run (hw : 0 < w) (p : BitVec w) (hp : par p w = true) (bs : List Bool) (c : BitVec w) :
    par (run p c bs) w = (par c w ^^ decide (bs.count true % 2 = 1)) := by
  induction bs generalizing c with
  | nil => simp [run]
  | cons b bs ih =>
    rw [run, List.foldl_cons, ← run, ih, feed, par_step p _ hp, par_xor]
    cases b
    · simp [bit, par_zero]
    · simp only [bit, if_true, par_one w hw hw, List.count_cons_self]
      rcases Nat.mod_two_eq_zero_or_one (bs.count true) with h | h
      · have : (bs.count true + 1) % 2 = 1 := by omega
        simp [h, this]
      · have : (bs.count true + 1) % 2 = 0 := by omega
        simp [h, this]

/-! ## Bytes -/

theorem byteBits_length (b : UInt8) : (byteBits b).length = 8 := by simp [byteBits]

theorem bits_length (bs : List UInt8) : (bits bs).length = 8 * bs.length := by
  induction bs with
  | nil => rfl
  | cons b bs ih =>
    rw [bits, List.flatMap_cons, List.length_append, ← bits, ih, byteBits_length, List.length_cons]; omega

theorem ofBits_byte (hw : 8 ≤ w) (b : UInt8) : ofBits w (byteBits b) = b.toBitVec.setWidth w := by
  apply BitVec.eq_of_getLsbD_eq
  intro i hi
  rw [ofBits_get _ _ hi, BitVec.getLsbD_setWidth, List.getD_eq_getElem?_getD, byteBits]
  by_cases h8 : i < 8
  · simp [h8, hi, BitVec.getLsbD]
  · have : (b.toBitVec).getLsbD i = false := BitVec.getLsbD_of_ge _ _ (by omega)
    rw [this, List.getElem?_map, List.getElem?_eq_none (by simp; omega)]; simp

theorem low_high (c : BitVec w) :
    (UInt8.toBitVec ⟨c.setWidth 8⟩).setWidth w ^^^ ((c >>> 8) <<< 8) = c := by
  apply BitVec.eq_of_getLsbD_eq
  intro i hi
  simp only [BitVec.getLsbD_xor, BitVec.getLsbD_setWidth, BitVec.getLsbD_shiftLeft, BitVec.getLsbD_ushiftRight]
  by_cases h8 : i < 8
  · simp [h8, hi]
  · simp only [hi, h8, decide_true, decide_false, Bool.true_and, Bool.false_and, Bool.not_false]
    rw [show 8 + (i - 8) = i by omega]
    simp

theorem iter_shl (p W : BitVec w) (n : Nat) (h : ∀ i, w - n ≤ i → W.getLsbD i = false) :
    (step p)^[n] (W <<< n) = W := by
  induction n with
  | zero => simp
  | succ n ih =>
    rw [Function.iterate_succ, Function.comp, BitVec.shiftLeft_add, step_shl]
    · exact ih (fun i hi => h i (by omega))
    · rw [BitVec.getLsbD_shiftLeft]
      by_cases h1 : w - 1 < n
      · simp [h1]
      · rw [h _ (by omega)]; simp

theorem table_eq (hw : 8 ≤ w) (p c : BitVec w) (v : UInt8) :
    (step p)^[8] ((UInt8.toBitVec (⟨c.setWidth 8⟩ ^^^ v)).setWidth w) ^^^ (c >>> 8) = run p c (byteBits v) := by
  have h : (step p)^[8] ((c >>> 8) <<< 8) = c >>> 8 := by
    apply iter_shl
    intro i hi
    rw [BitVec.getLsbD_ushiftRight]; exact BitVec.getLsbD_of_ge _ _ (by omega)
  rw [run_short p c _ (by rw [byteBits_length]; exact hw), byteBits_length, ofBits_byte hw]
  conv_lhs => rw [← h]
  rw [← iter_xor]
  congr 1
  conv_rhs => rw [← low_high c]
  rw [UInt8.toBitVec_xor, BitVec.setWidth_xor, BitVec.xor_assoc, BitVec.xor_assoc, BitVec.xor_comm ((c >>> 8) <<< 8)]

end Gofer.CrcGen
