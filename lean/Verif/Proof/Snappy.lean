import Verif.Model.Snappy
import Mathlib.Tactic.Ring
import Mathlib.Tactic.NormNum
/-! # Lemmas about the Snappy decoder -/
namespace Gofer.Snappy
open Gofer.Spec.Snappy

theorem le_length (k n : Nat) : (le k n).length = k := by
  induction k generalizing n with
  | zero => rfl
  | succ k ih => simp [le, ih]

theorem toNat_small {n : Nat} (h : n < 256) : (n.toUInt8).toNat = n := by
  simp [Nat.toUInt8, UInt8.toNat_ofNat', Nat.mod_eq_of_lt h]

theorem number_le (k n : Nat) (r : Bytes) (h : n < 256 ^ k) : number k (le k n ++ r) = some (n, r) := by
  induction k generalizing n with
  | zero => simp at h; simp [number, le, h]
  | succ k ih =>
    have h1 : n / 256 < 256 ^ k := by rw [Nat.pow_succ] at h; exact Nat.div_lt_of_lt_mul (by omega)
    show (number k (le k (n / 256) ++ r)).map _ = _
    rw [ih _ h1]
    simp only [Option.map_some, toNat_small (Nat.mod_lt n (by decide)), Option.some.injEq, Prod.mk.injEq, and_true]
    omega

theorem number_inv {k : Nat} {src : Bytes} {n : Nat} {r : Bytes} (h : number k src = some (n, r)) : n < 256 ^ k ∧ src = le k n ++ r := by
  induction k generalizing src n with
  | zero => simp [number] at h; obtain ⟨rfl, rfl⟩ := h; simp [le]
  | succ k ih =>
    cases src with
    | nil => simp [number] at h
    | cons b s =>
      simp only [number, Option.map_eq_some_iff] at h
      obtain ⟨⟨m, r'⟩, h1, h2⟩ := h
      simp only [Prod.mk.injEq] at h2
      obtain ⟨h2, rfl⟩ := h2
      obtain ⟨h3, rfl⟩ := ih h1
      have hb := b.toNat_lt
      refine ⟨by rw [Nat.pow_succ]; omega, ?_⟩
      subst h2
      have e1 : (b.toNat + 256 * m) % 256 = b.toNat := by omega
      have e2 : (b.toNat + 256 * m) / 256 = m := by omega
      simp only [le, e1, e2, List.cons_append, List.cons.injEq, and_true]
      exact (UInt8.ofNat_toNat).symm

theorem copyBack_eq (off n : Nat) (dst : Bytes) : copyBack off n dst = back off n dst := by
  induction n generalizing dst with
  | zero => rfl
  | succ n ih => simp [copyBack, back, ih]

theorem back_length (off n : Nat) (dst : Bytes) : (back off n dst).length = dst.length + n := by
  induction n generalizing dst with
  | zero => rfl
  | succ n ih => simp [back, ih]; omega

/-- The effect of an element, with the checks. -/
def apply (dLen : Nat) (dst : Bytes) : Elem → Option Bytes
  | .lit bs => if bs.length > dLen - dst.length then none else some (dst ++ bs)
  | .copy off len => doCopy dLen dst off len

theorem doLit_app (dLen : Nat) (dst bs r : Bytes) (h : 1 ≤ bs.length) :
    doLit dLen dst (bs.length - 1) (bs ++ r) = (apply dLen dst (.lit bs)).map fun d => (d, r) := by
  unfold doLit
  simp only [apply]
  have e : bs.length - 1 + 1 = bs.length := by omega
  rw [e]
  by_cases hb : bs.length > dLen - dst.length
  · rw [if_pos (.inl hb), if_pos hb]; rfl
  · rw [if_neg (by simp; omega), if_neg hb]
    simp

theorem turn_of_writes {e : Elem} {tag : UInt8} {t : Bytes} (h : Writes e (tag :: t)) (dLen : Nat) (dst r : Bytes) :
    turn dLen dst tag (t ++ r) = (apply dLen dst e).map fun d => (d, r) := by
  generalize hb : tag :: t = b at h
  cases h with
  | short bs h1 h2 =>
    simp only [List.cons.injEq] at hb
    obtain ⟨rfl, rfl⟩ := hb
    unfold turn
    rw [toNat_small (by omega)]
    have e0 : 4 * (t.length - 1) % 4 = 0 := by omega
    have e1 : 4 * (t.length - 1) / 4 = t.length - 1 := by omega
    rw [e0]
    simp only [e1]
    rw [if_pos (by omega), doLit_app _ _ _ _ h1]
  | long k bs hk1 hk4 h1 h2 =>
    simp only [List.cons.injEq] at hb
    obtain ⟨rfl, rfl⟩ := hb
    unfold turn
    rw [toNat_small (by omega)]
    have e0 : 4 * (59 + k) % 4 = 0 := by omega
    have e1 : 4 * (59 + k) / 4 = 59 + k := by omega
    have e2 : 59 + k - 59 = k := by omega
    rw [e0]
    simp only [e1, e2]
    rw [if_neg (by omega), List.append_assoc, number_le _ _ _ (by omega)]
    simp only [Option.bind_some]
    rw [doLit_app _ _ _ _ h1]
  | copy1 off len ho h1 h2 =>
    simp only [List.cons.injEq] at hb
    obtain ⟨rfl, rfl⟩ := hb
    unfold turn
    rw [toNat_small (by omega)]
    have e0 : (1 + 4 * (len - 4) + 32 * (off / 256)) % 4 = 1 := by omega
    have e1 : (1 + 4 * (len - 4) + 32 * (off / 256)) / 32 = off / 256 := by omega
    have e2 : (1 + 4 * (len - 4) + 32 * (off / 256)) / 4 % 8 = len - 4 := by omega
    have e3 : off / 256 * 256 + off % 256 = off := by omega
    have e4 : 4 + (len - 4) = len := by omega
    rw [e0]
    simp only [List.cons_append, List.nil_append, number, Option.map_some, Option.bind_some, e1, e2, toNat_small (Nat.mod_lt off (by decide)),
      Nat.mul_zero, Nat.add_zero, e3, e4, apply]
  | copy2 off len ho h1 h2 =>
    simp only [List.cons.injEq] at hb
    obtain ⟨rfl, rfl⟩ := hb
    unfold turn
    rw [toNat_small (by omega)]
    have e0 : (2 + 4 * (len - 1)) % 4 = 2 := by omega
    have e1 : 1 + (2 + 4 * (len - 1)) / 4 = len := by omega
    rw [e0]
    simp only [number_le 2 off r (by omega), Option.bind_some, e1, apply]
  | copy4 off len ho h1 h2 =>
    simp only [List.cons.injEq] at hb
    obtain ⟨rfl, rfl⟩ := hb
    unfold turn
    rw [toNat_small (by omega)]
    have e0 : (3 + 4 * (len - 1)) % 4 = 3 := by omega
    have e1 : 1 + (3 + 4 * (len - 1)) / 4 = len := by omega
    rw [e0]
    simp only [number_le 4 off r (by omega), Option.bind_some, e1, apply]

theorem tag_eq {tag : UInt8} {n : Nat} (h : tag.toNat = n) : n.toUInt8 = tag := by
  subst h; exact UInt8.ofNat_toNat

theorem doLit_inv {dLen x : Nat} {dst src dst' r : Bytes} (h : doLit dLen dst x src = some (dst', r)) :
    ∃ bs, bs.length = x + 1 ∧ src = bs ++ r ∧ apply dLen dst (.lit bs) = some dst' := by
  unfold doLit at h
  split at h
  · cases h
  · rename_i hn
    simp only [Option.some.injEq, Prod.mk.injEq] at h
    obtain ⟨rfl, rfl⟩ := h
    have hl : (src.take (x + 1)).length = x + 1 := by simp; omega
    refine ⟨src.take (x + 1), hl, (List.take_append_drop _ _).symm, ?_⟩
    rw [apply, if_neg (by rw [hl]; omega)]

theorem turn_inv {dLen : Nat} {dst src dst' r : Bytes} {tag : UInt8} (h : turn dLen dst tag src = some (dst', r)) :
    ∃ e t, Writes e (tag :: t) ∧ src = t ++ r ∧ apply dLen dst e = some dst' := by
  have ht := tag.toNat_lt
  unfold turn at h
  split at h
  · rename_i hm
    simp only at h
    split at h
    · rename_i hx
      obtain ⟨bs, hl, hs, ha⟩ := doLit_inv h
      refine ⟨.lit bs, bs, ?_, hs, ha⟩
      have := Writes.short bs (by omega) (by omega)
      rwa [tag_eq (tag := tag) (by omega)] at this
    · rename_i hx
      obtain ⟨⟨x, src'⟩, hn, h'⟩ := Option.bind_eq_some_iff.1 h
      clear h
      obtain ⟨h1, rfl⟩ := number_inv hn
      obtain ⟨bs, hl, hs, ha⟩ := doLit_inv h'
      simp only at hs; subst hs
      refine ⟨.lit bs, le (tag.toNat / 4 - 59) x ++ bs, ?_, by simp, ha⟩
      have := Writes.long (tag.toNat / 4 - 59) bs (by omega) (by omega) (by omega) (by omega)
      rwa [tag_eq (tag := tag) (by omega), hl] at this
  · rename_i hm
    obtain ⟨⟨n, src'⟩, hn, h'⟩ := Option.bind_eq_some_iff.1 h
    clear h
    obtain ⟨h1, rfl⟩ := number_inv hn
    obtain ⟨d, hd, h⟩ := Option.map_eq_some_iff.1 h'
    simp only [Prod.mk.injEq] at h
    obtain ⟨rfl, rfl⟩ := h
    refine ⟨.copy (tag.toNat / 32 * 256 + n) (4 + tag.toNat / 4 % 8), le 1 n, ?_, rfl, hd⟩
    have := Writes.copy1 (tag.toNat / 32 * 256 + n) (4 + tag.toNat / 4 % 8) (by omega) (by omega) (by omega)
    have e1 : (tag.toNat / 32 * 256 + n) / 256 = tag.toNat / 32 := by omega
    have e2 : (tag.toNat / 32 * 256 + n) % 256 = n % 256 := by omega
    have e3 : 4 + tag.toNat / 4 % 8 - 4 = tag.toNat / 4 % 8 := by omega
    rw [e1, e2, e3, tag_eq (tag := tag) (by omega)] at this
    exact this
  · rename_i hm
    obtain ⟨⟨n, src'⟩, hn, h'⟩ := Option.bind_eq_some_iff.1 h
    clear h
    obtain ⟨h1, rfl⟩ := number_inv hn
    obtain ⟨d, hd, h⟩ := Option.map_eq_some_iff.1 h'
    simp only [Prod.mk.injEq] at h
    obtain ⟨rfl, rfl⟩ := h
    refine ⟨.copy n (1 + tag.toNat / 4), le 2 n, ?_, rfl, hd⟩
    have := Writes.copy2 n (1 + tag.toNat / 4) (by omega) (by omega) (by omega)
    rwa [tag_eq (tag := tag) (by omega)] at this
  · rename_i h0 h1' h2'
    have h0 : tag.toNat % 4 ≠ 0 := h0
    have h1'' : tag.toNat % 4 ≠ 1 := h1'
    have h2'' : tag.toNat % 4 ≠ 2 := h2'
    obtain ⟨⟨n, src'⟩, hn, h'⟩ := Option.bind_eq_some_iff.1 h
    clear h
    obtain ⟨h1, rfl⟩ := number_inv hn
    obtain ⟨d, hd, h⟩ := Option.map_eq_some_iff.1 h'
    simp only [Prod.mk.injEq] at h
    obtain ⟨rfl, rfl⟩ := h
    refine ⟨.copy n (1 + tag.toNat / 4), le 4 n, ?_, rfl, hd⟩
    have := Writes.copy4 n (1 + tag.toNat / 4) (by omega) (by omega) (by omega)
    rwa [tag_eq (tag := tag) (by omega)] at this

theorem writes_ne {e : Elem} {b : Bytes} (h : Writes e b) : ∃ tag t, b = tag :: t := by
  cases h <;> exact ⟨_, _, rfl⟩

/-- The length of an element's output. -/
def size : Elem → Nat
  | .lit bs => bs.length
  | .copy _ len => len

theorem apply_some {dLen : Nat} {dst d : Bytes} {e : Elem} (h : apply dLen dst e = some d) :
    size e ≤ dLen - dst.length ∧ d.length = dst.length + size e ∧ Valid [e] dst ∧ expand [e] dst = d := by
  cases e with
  | lit bs =>
    simp only [apply] at h
    split at h
    · cases h
    · cases h
      exact ⟨by simp only [size]; omega, by simp [size], trivial, rfl⟩
  | copy off len =>
    simp only [apply, doCopy] at h
    split at h
    · cases h
    · rename_i hn
      cases h
      rw [copyBack_eq]
      exact ⟨by simp only [size]; omega, back_length _ _ _, ⟨by omega, by omega, trivial⟩, rfl⟩

theorem writes_size {e : Elem} {b : Bytes} (h : Writes e b) : 1 ≤ size e ∧ 3 * size e ≤ 64 * b.length := by
  cases h <;> simp only [size, List.length_cons, List.length_append, le_length, List.length_nil] <;> omega

theorem expand_cons (e : Elem) (es : List Elem) (dst : Bytes) : expand (e :: es) dst = expand es (expand [e] dst) := by
  cases e <;> rfl

theorem valid_cons (e : Elem) (es : List Elem) (dst : Bytes) : Valid (e :: es) dst ↔ Valid [e] dst ∧ Valid es (expand [e] dst) := by
  cases e <;> simp [Valid, expand, and_assoc]

theorem expand_one_length (e : Elem) (dst : Bytes) : (expand [e] dst).length = dst.length + size e := by
  cases e <;> simp [expand, size, back_length]

theorem expand_length (es : List Elem) (dst : Bytes) : dst.length ≤ (expand es dst).length := by
  induction es generalizing dst with
  | nil => exact Nat.le_refl _
  | cons e es ih =>
    rw [expand_cons]
    have := ih (expand [e] dst)
    rw [expand_one_length] at this
    omega

theorem apply_of {dLen : Nat} {dst : Bytes} {e : Elem} (hv : Valid [e] dst) (hl : size e ≤ dLen - dst.length) : apply dLen dst e = some (expand [e] dst) := by
  cases e with
  | lit bs => simp only [apply, size] at *; rw [if_neg (by omega)]; rfl
  | copy off len =>
    simp only [apply, doCopy, size] at *
    rw [if_neg (by have := hv.1; have := hv.2.1; omega), copyBack_eq]; rfl

theorem loop_of {es : List Elem} {b : Bytes} (h : WritesAll es b) : ∀ (dLen fuel : Nat) (dst : Bytes), b.length ≤ fuel → Valid es dst → (expand es dst).length = dLen →
    loop dLen fuel dst b = some (expand es dst) := by
  induction h with
  | nil =>
    intro dLen fuel dst _ _ hl
    cases fuel <;> simp [loop, expand] <;> exact hl
  | @cons e es b bs hw hall ih =>
    intro dLen fuel dst hf hv hl
    obtain ⟨tag, t, rfl⟩ := writes_ne hw
    rw [valid_cons] at hv
    rw [expand_cons] at hl ⊢
    have hlen := expand_length es (expand [e] dst)
    rw [expand_one_length] at hlen
    cases fuel with
    | zero => simp at hf
    | succ fuel =>
      simp only [List.cons_append, loop]
      rw [turn_of_writes hw, apply_of hv.1 (by omega)]
      simp only [Option.map_some]
      exact ih dLen fuel _ (by simp at hf; omega) hv.2 hl

theorem loop_inv (dLen : Nat) : ∀ (fuel : Nat) (dst b x : Bytes), loop dLen fuel dst b = some x →
    ∃ es, WritesAll es b ∧ Valid es dst ∧ expand es dst = x ∧ x.length = dLen := by
  intro fuel
  induction fuel with
  | zero =>
    intro dst b x h
    cases b with
    | nil =>
      simp only [loop] at h
      split at h
      · cases h; exact ⟨[], .nil, trivial, rfl, by assumption⟩
      · cases h
    | cons a b => simp [loop] at h
  | succ fuel ih =>
    intro dst b x h
    cases b with
    | nil =>
      simp only [loop] at h
      split at h
      · cases h; exact ⟨[], .nil, trivial, rfl, by assumption⟩
      · cases h
    | cons tag src =>
      simp only [loop] at h
      split at h
      · cases h
      · rename_i dst' r ht
        obtain ⟨e, t, hw, rfl, ha⟩ := turn_inv ht
        obtain ⟨es, h1, h2, h3, h4⟩ := ih _ _ _ h
        obtain ⟨_, _, hv, he⟩ := apply_some ha
        refine ⟨e :: es, ?_, ?_, ?_, h4⟩
        · have := WritesAll.cons hw h1
          simpa using this
        · rw [valid_cons, he]; exact ⟨hv, h2⟩
        · rw [expand_cons, he, h3]

/-- Nothing may follow a complete sequence of elements. -/
theorem loop_more (dLen : Nat) : ∀ (fuel fuel' : Nat) (dst b x s : Bytes), loop dLen fuel dst b = some x → s ≠ [] → loop dLen fuel' dst (b ++ s) = none := by
  intro fuel
  have hend : ∀ (fuel' : Nat) (dst s : Bytes), dst.length = dLen → s ≠ [] → loop dLen fuel' dst s = none := by
    intro fuel' dst s hl hs
    cases s with
    | nil => exact absurd rfl hs
    | cons tag s =>
      cases fuel' with
      | zero => rfl
      | succ f =>
        simp only [loop]
        split
        · rfl
        · rename_i d r ht
          obtain ⟨e, t, hw, _, ha⟩ := turn_inv ht
          have := (apply_some ha).1
          have := (writes_size hw).1
          omega
  induction fuel with
  | zero =>
    intro fuel' dst b x s h hs
    cases b with
    | nil =>
      simp only [loop] at h
      split at h
      · exact hend _ _ _ (by assumption) hs
      · cases h
    | cons a b => simp [loop] at h
  | succ fuel ih =>
    intro fuel' dst b x s h hs
    cases b with
    | nil =>
      simp only [loop] at h
      split at h
      · exact hend _ _ _ (by assumption) hs
      · cases h
    | cons tag src =>
      simp only [loop] at h
      split at h
      · cases h
      · rename_i dst' r ht
        obtain ⟨e, t, hw, rfl, ha⟩ := turn_inv ht
        cases fuel' with
        | zero => rfl
        | succ f =>
          simp only [List.cons_append, loop, List.append_assoc, turn_of_writes hw, ha, Option.map_some]
          exact ih f _ _ _ _ h hs

theorem uvarint_ext {src : Bytes} : ∀ {i x v : Nat} {r : Bytes} (s : Bytes), uvarintLoop src i x = some (v, r) → uvarintLoop (src ++ s) i x = some (v, r ++ s) := by
  induction src with
  | nil => intro i x v r s h; simp [uvarintLoop] at h
  | cons b src ih =>
    intro i x v r s h
    simp only [List.cons_append, uvarintLoop] at h ⊢
    by_cases h10 : i = 10
    · rw [if_pos h10] at h; cases h
    rw [if_neg h10] at h ⊢
    by_cases hb : b.toNat < 128
    · rw [if_pos hb] at h ⊢
      by_cases h9 : i = 9 ∧ 1 < b.toNat
      · rw [if_pos h9] at h; cases h
      rw [if_neg h9] at h ⊢
      simp only [Option.some.injEq, Prod.mk.injEq] at h ⊢
      exact ⟨h.1, by rw [h.2]⟩
    · rw [if_neg hb] at h ⊢
      exact ih s h

theorem decodedLen_ext {src : Bytes} {n : Nat} {r : Bytes} (s : Bytes) (h : decodedLen src = some (n, r)) : decodedLen (src ++ s) = some (n, r ++ s) := by
  unfold decodedLen at h ⊢
  split at h
  · cases h
  · rename_i v r' hv
    rw [uvarint_ext s hv]
    simp only
    split at h
    · cases h
    · rename_i hle
      simp only [Option.some.injEq, Prod.mk.injEq] at h
      rw [if_neg hle, h.1, h.2]

theorem uvarint_varint (n : Nat) : ∀ (i x : Nat) (r : Bytes), i ≤ 4 → n < 128 ^ (5 - i) → uvarintLoop (varint n ++ r) i x = some (x + n * 128 ^ i, r) := by
  induction n using Nat.strongRecOn with
  | ind n ih =>
    intro i x r hi hn
    rw [varint]
    split
    · rename_i hs
      simp only [List.cons_append, List.nil_append, uvarintLoop, toNat_small (show n < 256 by omega)]
      rw [if_neg (by omega), if_pos hs, if_neg (by omega)]
    · rename_i hs
      have hi4 : i < 4 := by
        rcases Nat.lt_or_ge i 4 with h | h
        · exact h
        · have : i = 4 := by omega
          subst this
          simp at hn; omega
      simp only [List.cons_append, uvarintLoop, toNat_small (show 128 + n % 128 < 256 by omega)]
      rw [if_neg (by omega), if_neg (by omega), ih (n / 128) (by omega) (i + 1) _ r (by omega) (by
        have : 128 ^ (5 - i) = 128 ^ (5 - (i + 1)) * 128 := by rw [← Nat.pow_succ]; congr 1; omega
        rw [this] at hn
        exact Nat.div_lt_of_lt_mul (by rw [Nat.mul_comm]; exact hn))]
      have e : 128 + n % 128 - 128 = n % 128 := by omega
      have h1 : n % 128 + 128 * (n / 128) = n := Nat.mod_add_div n 128
      have h2 : n % 128 * 128 ^ i + n / 128 * 128 ^ (i + 1) = n * 128 ^ i := by
        conv_rhs => rw [← h1]
        rw [Nat.pow_succ, Nat.add_mul]
        generalize 128 ^ i = y
        generalize n % 128 = u
        generalize n / 128 = v
        ring
      rw [e, Nat.add_assoc, h2]

theorem decodedLen_varint (n : Nat) (h : n < 2 ^ 32) (r : Bytes) : decodedLen (varint n ++ r) = some (n, r) := by
  have h5 : n < 128 ^ (5 - 0) := by
    have : (128 : Nat) ^ (5 - 0) = 34359738368 := by decide
    rw [this]; omega
  have hv := uvarint_varint n 0 0 r (by omega) h5
  have e : 0 + n * 128 ^ 0 = n := by rw [Nat.pow_zero]; omega
  rw [e] at hv
  unfold decodedLen
  rw [hv]
  show (if n > 0xffffffff then none else some (n, r)) = _
  rw [if_neg (by omega)]

/-! ### The extension of s2 -/

theorem turn2_lit {dLen : Nat} {dst src : Bytes} {last : Nat} {tag : UInt8} (h : tag.toNat % 4 = 0) :
    turn2 dLen dst last tag src = (turn dLen dst tag src).map fun p => (p.1, last, p.2) := by
  unfold turn2 turn
  rw [h]
  simp only
  split
  · rfl
  · cases number (tag.toNat / 4 - 59) src <;> rfl

theorem turn2_copy {dLen : Nat} {dst src : Bytes} {last : Nat} {tag : UInt8} {off len : Nat} {t : Bytes} (h : Writes (.copy off len) (tag :: t)) (h0 : 1 ≤ off) :
    turn2 dLen dst last tag (t ++ src) = (doCopy dLen dst off len).map fun d => (d, off, src) := by
  generalize hb : tag :: t = b at h
  generalize he : Elem.copy off len = e at h
  cases h with
  | short bs h1 h2 => cases he
  | long k bs hk1 hk4 h1 h2 => cases he
  | copy1 off' len' ho h1 h2 =>
    cases he
    simp only [List.cons.injEq] at hb
    obtain ⟨rfl, rfl⟩ := hb
    unfold turn2
    rw [toNat_small (by omega)]
    have e0 : (1 + 4 * (len - 4) + 32 * (off / 256)) % 4 = 1 := by omega
    have e1 : (1 + 4 * (len - 4) + 32 * (off / 256)) / 32 = off / 256 := by omega
    have e2 : (1 + 4 * (len - 4) + 32 * (off / 256)) / 4 % 8 = len - 4 := by omega
    have e3 : off / 256 * 256 + off % 256 = off := by omega
    have e4 : 4 + (len - 4) = len := by omega
    rw [e0]
    simp only [List.cons_append, List.nil_append, number, Option.map_some, Option.bind_some, e1, e2, toNat_small (Nat.mod_lt off (by decide)),
      Nat.mul_zero, Nat.add_zero, e3, e4]
    rw [if_neg (by omega)]
  | copy2 off' len' ho h1 h2 =>
    cases he
    simp only [List.cons.injEq] at hb
    obtain ⟨rfl, rfl⟩ := hb
    unfold turn2
    rw [toNat_small (by omega)]
    have e0 : (2 + 4 * (len - 1)) % 4 = 2 := by omega
    have e1 : 1 + (2 + 4 * (len - 1)) / 4 = len := by omega
    rw [e0]
    simp only [number_le 2 off src (by omega), Option.bind_some, e1]
  | copy4 off' len' ho h1 h2 =>
    cases he
    simp only [List.cons.injEq] at hb
    obtain ⟨rfl, rfl⟩ := hb
    unfold turn2
    rw [toNat_small (by omega)]
    have e0 : (3 + 4 * (len - 1)) % 4 = 3 := by omega
    have e1 : 1 + (3 + 4 * (len - 1)) / 4 = len := by omega
    rw [e0]
    simp only [number_le 4 off src (by omega), Option.bind_some, e1]

theorem writes_lit_tag {bs : Bytes} {tag : UInt8} {t : Bytes} (h : Writes (.lit bs) (tag :: t)) : tag.toNat % 4 = 0 := by
  generalize hb : tag :: t = b at h
  generalize he : Elem.lit bs = e at h
  cases h with
  | short bs h1 h2 => simp only [List.cons.injEq] at hb; rw [hb.1, toNat_small (by omega)]; omega
  | long k bs hk1 hk4 h1 h2 => simp only [List.cons.injEq] at hb; rw [hb.1, toNat_small (by omega)]; omega
  | copy1 => cases he
  | copy2 => cases he
  | copy4 => cases he

/-- An element in plain form that is not a copy of offset 0. -/
theorem turn2_of_writes {e : Elem} {tag : UInt8} {t : Bytes} (h : Writes e (tag :: t)) (dLen : Nat) (dst : Bytes) (last : Nat) (r : Bytes)
    (hv : ∀ off len, e = .copy off len → 1 ≤ off) :
    turn2 dLen dst last tag (t ++ r) = (apply dLen dst e).map fun d => (d, lastOff last e, r) := by
  cases e with
  | lit bs =>
    rw [turn2_lit (writes_lit_tag h), turn_of_writes h, Option.map_map]
    rfl
  | copy off len => exact turn2_copy h (hv off len rfl)

theorem turn2_rep {dLen : Nat} {dst src : Bytes} {last : Nat} {tag : UInt8} (h : tag.toNat % 4 = 1) (h2 : tag.toNat / 32 = 0) :
    turn2 dLen dst last tag (0 :: src) =
      (repeatLen (tag.toNat / 4 % 8) src).bind fun p => (doCopy dLen dst last p.1).map fun dst => (dst, last, p.2) := by
  unfold turn2
  rw [h]
  have z : (0 : UInt8).toNat = 0 := rfl
  simp only [number, Option.map_some, Option.bind_some, h2, z, Nat.zero_mul, Nat.mul_zero, Nat.add_zero, if_true]

theorem turn2_of_writes2 {last : Nat} {e : Elem} {tag : UInt8} {t : Bytes} (h : Writes2 last e (tag :: t)) (dLen : Nat) (dst : Bytes) (r : Bytes)
    (hv : ∀ off len, e = .copy off len → 1 ≤ off) :
    turn2 dLen dst last tag (t ++ r) = (apply dLen dst e).map fun d => (d, lastOff last e, r) := by
  generalize hb : tag :: t = b at h
  cases h with
  | plain h => subst hb; exact turn2_of_writes h _ _ _ _ hv
  | rep0 len h1 h2 =>
    simp only [List.cons.injEq] at hb
    obtain ⟨rfl, rfl⟩ := hb
    unfold turn2
    rw [toNat_small (by omega)]
    have e0 : (1 + 4 * (len - 4)) % 4 = 1 := by omega
    have e1 : (1 + 4 * (len - 4)) / 32 = 0 := by omega
    have e2 : (1 + 4 * (len - 4)) / 4 % 8 = len - 4 := by omega
    have e3 : len - 4 + 4 = len := by omega
    rw [e0]
    have z : (0 : UInt8).toNat = 0 := rfl
    simp only [List.cons_append, List.nil_append, number, Option.map_some, Option.bind_some, e1, e2, z, Nat.zero_mul, Nat.mul_zero, Nat.add_zero, if_true, repeatLen, apply, lastOff]
    rw [if_pos (by omega)]
    simp only [Option.bind_some, e3]
  | rep1 len h1 h2 =>
    simp only [List.cons.injEq] at hb
    obtain ⟨rfl, rfl⟩ := hb
    have e3 : len - 8 + 4 + 4 = len := by omega
    have e4 : (21 : UInt8).toNat / 4 % 8 = 5 := rfl
    rw [List.cons_append, turn2_rep rfl rfl, e4]
    simp only [repeatLen]
    rw [if_neg (by decide), if_pos trivial, number_le 1 _ _ (by omega)]
    simp only [Option.map_some, Option.bind_some, e3, apply, lastOff]
  | rep2 len h1 h2 =>
    simp only [List.cons.injEq] at hb
    obtain ⟨rfl, rfl⟩ := hb
    have e3 : len - 260 + 256 + 4 = len := by omega
    have e4 : (25 : UInt8).toNat / 4 % 8 = 6 := rfl
    rw [List.cons_append, turn2_rep rfl rfl, e4]
    simp only [repeatLen]
    rw [if_neg (by decide), if_neg (by decide), if_pos trivial, number_le 2 _ _ (by omega)]
    simp only [Option.map_some, Option.bind_some, e3, apply, lastOff]
  | rep3 len h1 h2 =>
    simp only [List.cons.injEq] at hb
    obtain ⟨rfl, rfl⟩ := hb
    have e3 : len - 65540 + 65536 + 4 = len := by omega
    have e4 : (29 : UInt8).toNat / 4 % 8 = 7 := rfl
    rw [List.cons_append, turn2_rep rfl rfl, e4]
    simp only [repeatLen]
    rw [if_neg (by decide), if_neg (by decide), if_neg (by decide), number_le 3 _ _ (by omega)]
    simp only [Option.map_some, Option.bind_some, e3, apply, lastOff]

theorem doCopy_pos {dLen off len : Nat} {dst d : Bytes} (h : doCopy dLen dst off len = some d) : 1 ≤ off := by
  unfold doCopy at h
  split at h
  · cases h
  · omega

theorem turn2_inv {dLen : Nat} {dst src dst' r : Bytes} {last last' : Nat} {tag : UInt8} (h : turn2 dLen dst last tag src = some (dst', last', r)) :
    ∃ e t, Writes2 last e (tag :: t) ∧ src = t ++ r ∧ apply dLen dst e = some dst' ∧ last' = lastOff last e ∧ ∀ off len, e = .copy off len → 1 ≤ off := by
  have ht := tag.toNat_lt
  have key : ∀ last'', turn dLen dst tag src = some (dst', r) → (∀ e t, Writes e (tag :: t) → src = t ++ r → last'' = lastOff last e) → last' = last'' →
      ∃ e t, Writes2 last e (tag :: t) ∧ src = t ++ r ∧ apply dLen dst e = some dst' ∧ last' = lastOff last e ∧ ∀ off len, e = .copy off len → 1 ≤ off := by
    intro last'' h1 h2 h3
    obtain ⟨e, t, hw, hs, ha⟩ := turn_inv h1
    refine ⟨e, t, .plain hw, hs, ha, by rw [h3]; exact h2 e t hw hs, ?_⟩
    rintro off len rfl
    exact doCopy_pos ha
  by_cases h0 : tag.toNat % 4 = 0
  · rw [turn2_lit h0] at h
    obtain ⟨⟨d, r'⟩, h1, h2⟩ := Option.map_eq_some_iff.1 h
    simp only [Prod.mk.injEq] at h2
    obtain ⟨rfl, rfl, rfl⟩ := h2
    refine key last h1 ?_ rfl
    intro e t hw _
    cases e with
    | lit bs => rfl
    | copy off len =>
      exfalso
      generalize hb : tag :: t = b at hw
      generalize he : Elem.copy off len = e at hw
      cases hw with
      | short => cases he
      | long => cases he
      | copy1 off len ho h1 h2 => simp only [List.cons.injEq] at hb; rw [hb.1, toNat_small (by omega)] at h0; omega
      | copy2 off len ho h1 h2 => simp only [List.cons.injEq] at hb; rw [hb.1, toNat_small (by omega)] at h0; omega
      | copy4 off len ho h1 h2 => simp only [List.cons.injEq] at hb; rw [hb.1, toNat_small (by omega)] at h0; omega
  unfold turn2 at h
  split at h
  · rename_i hm; exact absurd hm h0
  · rename_i hm
    obtain ⟨⟨n, src'⟩, hn, h'⟩ := Option.bind_eq_some_iff.1 h
    clear h
    obtain ⟨h1, rfl⟩ := number_inv hn
    simp only at h'
    split at h'
    · rename_i hz
      obtain ⟨⟨len, src''⟩, hl, h''⟩ := Option.bind_eq_some_iff.1 h'
      clear h'
      obtain ⟨d, hd, h⟩ := Option.map_eq_some_iff.1 h''
      simp only [Prod.mk.injEq] at h
      obtain ⟨rfl, rfl, rfl⟩ := h
      have hn0 : n = 0 := by omega
      subst hn0
      have ht32 : tag.toNat < 32 := by omega
      have hpos := doCopy_pos hd
      have le0 : le 1 0 = [0] := rfl
      unfold repeatLen at hl
      split at hl
      · simp only [Option.some.injEq, Prod.mk.injEq] at hl
        obtain ⟨rfl, rfl⟩ := hl
        refine ⟨.copy last (tag.toNat / 4 % 8 + 4), [0], ?_, rfl, hd, rfl, by rintro off len e; cases e; exact hpos⟩
        have := Writes2.rep0 (last := last) (tag.toNat / 4 % 8 + 4) (by omega) (by omega)
        rwa [tag_eq (tag := tag) (by omega)] at this
      · split at hl
        · obtain ⟨⟨n, s⟩, hn', h⟩ := Option.map_eq_some_iff.1 hl
          simp only [Prod.mk.injEq] at h
          obtain ⟨rfl, rfl⟩ := h
          obtain ⟨h1, rfl⟩ := number_inv hn'
          refine ⟨.copy last (n + 4 + 4), 0 :: le 1 n, ?_, rfl, hd, rfl, by rintro off len e; cases e; exact hpos⟩
          have := Writes2.rep1 (last := last) (n + 4 + 4) (by omega) (by omega)
          have e1 : n + 4 + 4 - 8 = n := by omega
          rw [e1] at this
          rwa [show tag = 21 from (tag_eq (tag := tag) (n := 21) (by omega)).symm]
        · split at hl
          · obtain ⟨⟨n, s⟩, hn', h⟩ := Option.map_eq_some_iff.1 hl
            simp only [Prod.mk.injEq] at h
            obtain ⟨rfl, rfl⟩ := h
            obtain ⟨h1, rfl⟩ := number_inv hn'
            refine ⟨.copy last (n + 256 + 4), 0 :: le 2 n, ?_, rfl, hd, rfl, by rintro off len e; cases e; exact hpos⟩
            have := Writes2.rep2 (last := last) (n + 256 + 4) (by omega) (by omega)
            have e1 : n + 256 + 4 - 260 = n := by omega
            rw [e1] at this
            rwa [show tag = 25 from (tag_eq (tag := tag) (n := 25) (by omega)).symm]
          · obtain ⟨⟨n, s⟩, hn', h⟩ := Option.map_eq_some_iff.1 hl
            simp only [Prod.mk.injEq] at h
            obtain ⟨rfl, rfl⟩ := h
            obtain ⟨h1, rfl⟩ := number_inv hn'
            refine ⟨.copy last (n + 65536 + 4), 0 :: le 3 n, ?_, rfl, hd, rfl, by rintro off len e; cases e; exact hpos⟩
            have := Writes2.rep3 (last := last) (n + 65536 + 4) (by omega) (by omega)
            have e1 : n + 65536 + 4 - 65540 = n := by omega
            rw [e1] at this
            rwa [show tag = 29 from (tag_eq (tag := tag) (n := 29) (by omega)).symm]
    · obtain ⟨d, hd, h⟩ := Option.map_eq_some_iff.1 h'
      simp only [Prod.mk.injEq] at h
      obtain ⟨rfl, rfl, rfl⟩ := h
      refine ⟨.copy (tag.toNat / 32 * 256 + n) (4 + tag.toNat / 4 % 8), le 1 n, .plain ?_, rfl, hd, rfl, by rintro off len e; cases e; exact doCopy_pos hd⟩
      have := Writes.copy1 (tag.toNat / 32 * 256 + n) (4 + tag.toNat / 4 % 8) (by omega) (by omega) (by omega)
      have e1 : (tag.toNat / 32 * 256 + n) / 256 = tag.toNat / 32 := by omega
      have e2 : (tag.toNat / 32 * 256 + n) % 256 = n % 256 := by omega
      have e3 : 4 + tag.toNat / 4 % 8 - 4 = tag.toNat / 4 % 8 := by omega
      rw [e1, e2, e3, tag_eq (tag := tag) (by omega)] at this
      exact this
  · rename_i hm
    obtain ⟨⟨n, src'⟩, hn, h'⟩ := Option.bind_eq_some_iff.1 h
    clear h
    obtain ⟨h1, rfl⟩ := number_inv hn
    obtain ⟨d, hd, h⟩ := Option.map_eq_some_iff.1 h'
    simp only [Prod.mk.injEq] at h
    obtain ⟨rfl, rfl, rfl⟩ := h
    refine ⟨.copy n (1 + tag.toNat / 4), le 2 n, .plain ?_, rfl, hd, rfl, by rintro off len e; cases e; exact doCopy_pos hd⟩
    have := Writes.copy2 n (1 + tag.toNat / 4) (by omega) (by omega) (by omega)
    rwa [tag_eq (tag := tag) (by omega)] at this
  · rename_i h0 h1' h2'
    have h0 : tag.toNat % 4 ≠ 0 := h0
    have h1'' : tag.toNat % 4 ≠ 1 := h1'
    have h2'' : tag.toNat % 4 ≠ 2 := h2'
    obtain ⟨⟨n, src'⟩, hn, h'⟩ := Option.bind_eq_some_iff.1 h
    clear h
    obtain ⟨h1, rfl⟩ := number_inv hn
    obtain ⟨d, hd, h⟩ := Option.map_eq_some_iff.1 h'
    simp only [Prod.mk.injEq] at h
    obtain ⟨rfl, rfl, rfl⟩ := h
    refine ⟨.copy n (1 + tag.toNat / 4), le 4 n, .plain ?_, rfl, hd, rfl, by rintro off len e; cases e; exact doCopy_pos hd⟩
    have := Writes.copy4 n (1 + tag.toNat / 4) (by omega) (by omega) (by omega)
    rwa [tag_eq (tag := tag) (by omega)] at this

theorem writes2_ne {last : Nat} {e : Elem} {b : Bytes} (h : Writes2 last e b) : ∃ tag t, b = tag :: t := by
  cases h with
  | plain h => exact writes_ne h
  | _ => exact ⟨_, _, rfl⟩

theorem writes2_size {last : Nat} {e : Elem} {b : Bytes} (h : Writes2 last e b) : 1 ≤ size e ∧ size e ≤ 2 ^ 23 * b.length := by
  cases h with
  | plain h => have := writes_size h; omega
  | _ => simp only [size, List.length_cons, le_length, List.length_nil]; omega

theorem valid_one_pos {e : Elem} {dst : Bytes} (h : Valid [e] dst) : ∀ off len, e = .copy off len → 1 ≤ off := by
  rintro off len rfl; exact h.1

theorem loop2_of {last : Nat} {es : List Elem} {b : Bytes} (h : WritesAll2 last es b) : ∀ (dLen fuel : Nat) (dst : Bytes), b.length ≤ fuel → Valid es dst →
    (expand es dst).length = dLen → loop2 dLen fuel dst last b = some (expand es dst) := by
  induction h with
  | nil =>
    intro dLen fuel dst _ _ hl
    cases fuel <;> simp [loop2, expand] <;> exact hl
  | @cons last e es b bs hw hall ih =>
    intro dLen fuel dst hf hv hl
    obtain ⟨tag, t, rfl⟩ := writes2_ne hw
    rw [valid_cons] at hv
    rw [expand_cons] at hl ⊢
    have hlen := expand_length es (expand [e] dst)
    rw [expand_one_length] at hlen
    cases fuel with
    | zero => simp at hf
    | succ fuel =>
      simp only [List.cons_append, loop2]
      rw [turn2_of_writes2 hw _ _ _ (valid_one_pos hv.1), apply_of hv.1 (by omega)]
      simp only [Option.map_some]
      exact ih dLen fuel _ (by simp at hf; omega) hv.2 hl

theorem loop2_inv (dLen : Nat) : ∀ (fuel : Nat) (dst : Bytes) (last : Nat) (b x : Bytes), loop2 dLen fuel dst last b = some x →
    ∃ es, WritesAll2 last es b ∧ Valid es dst ∧ expand es dst = x ∧ x.length = dLen := by
  intro fuel
  induction fuel with
  | zero =>
    intro dst last b x h
    cases b with
    | nil =>
      simp only [loop2] at h
      split at h
      · cases h; exact ⟨[], .nil, trivial, rfl, by assumption⟩
      · cases h
    | cons a b => simp [loop2] at h
  | succ fuel ih =>
    intro dst last b x h
    cases b with
    | nil =>
      simp only [loop2] at h
      split at h
      · cases h; exact ⟨[], .nil, trivial, rfl, by assumption⟩
      · cases h
    | cons tag src =>
      simp only [loop2] at h
      split at h
      · cases h
      · rename_i dst' last' r ht
        obtain ⟨e, t, hw, rfl, ha, rfl, _⟩ := turn2_inv ht
        obtain ⟨es, h1, h2, h3, h4⟩ := ih _ _ _ _ h
        obtain ⟨_, _, hv, he⟩ := apply_some ha
        refine ⟨e :: es, ?_, ?_, ?_, h4⟩
        · have := WritesAll2.cons hw h1
          simpa using this
        · rw [valid_cons, he]; exact ⟨hv, h2⟩
        · rw [expand_cons, he, h3]

/-- Nothing may follow a complete sequence of elements. -/
theorem loop2_more (dLen : Nat) : ∀ (fuel fuel' : Nat) (dst : Bytes) (last : Nat) (b x s : Bytes), loop2 dLen fuel dst last b = some x → s ≠ [] →
    loop2 dLen fuel' dst last (b ++ s) = none := by
  intro fuel
  have hend : ∀ (fuel' : Nat) (dst : Bytes) (last : Nat) (s : Bytes), dst.length = dLen → s ≠ [] → loop2 dLen fuel' dst last s = none := by
    intro fuel' dst last s hl hs
    cases s with
    | nil => exact absurd rfl hs
    | cons tag s =>
      cases fuel' with
      | zero => rfl
      | succ f =>
        simp only [loop2]
        split
        · rfl
        · rename_i d l r ht
          obtain ⟨e, t, hw, _, ha, _⟩ := turn2_inv ht
          have := (apply_some ha).1
          have := (writes2_size hw).1
          omega
  induction fuel with
  | zero =>
    intro fuel' dst last b x s h hs
    cases b with
    | nil =>
      simp only [loop2] at h
      split at h
      · exact hend _ _ _ _ (by assumption) hs
      · cases h
    | cons a b => simp [loop2] at h
  | succ fuel ih =>
    intro fuel' dst last b x s h hs
    cases b with
    | nil =>
      simp only [loop2] at h
      split at h
      · exact hend _ _ _ _ (by assumption) hs
      · cases h
    | cons tag src =>
      simp only [loop2] at h
      split at h
      · cases h
      · rename_i dst' last' r ht
        obtain ⟨e, t, hw, rfl, ha, rfl, hp⟩ := turn2_inv ht
        cases fuel' with
        | zero => rfl
        | succ f =>
          simp only [List.cons_append, loop2, List.append_assoc, turn2_of_writes2 hw _ _ _ hp, ha, Option.map_some]
          exact ih f _ _ _ _ _ h hs

theorem writesAll2_of {es : List Elem} {b : Bytes} (h : WritesAll es b) : ∀ last, WritesAll2 last es b := by
  induction h with
  | nil => intro last; exact .nil
  | cons hw _ ih => intro last; exact .cons (.plain hw) (ih _)

theorem suffix_uvarint (s : Bytes) : ∀ (i a v : Nat) (r : Bytes), uvarintLoop s i a = some (v, r) → r <:+ s := by
  induction s with
  | nil => intro i a v r h; simp [uvarintLoop] at h
  | cons c s ih =>
    intro i a v r h
    simp only [uvarintLoop] at h
    split at h
    · cases h
    · split at h
      · split at h
        · cases h
        · simp only [Option.some.injEq, Prod.mk.injEq] at h
          rw [← h.2]; exact List.suffix_cons _ _
      · exact (ih _ _ _ _ h).trans (List.suffix_cons _ _)

theorem decodedLen_inv {src : Bytes} {n : Nat} {b : Bytes} (h : decodedLen src = some (n, b)) : ∃ head, src = head ++ b ∧ n < 2 ^ 32 := by
  unfold decodedLen at h
  split at h
  · cases h
  · rename_i v r hv
    split at h
    · cases h
    · simp only [Option.some.injEq, Prod.mk.injEq] at h
      obtain ⟨rfl, rfl⟩ := h
      obtain ⟨hd, rfl⟩ := suffix_uvarint _ _ _ _ _ hv
      exact ⟨hd, rfl, by omega⟩

end Gofer.Snappy
