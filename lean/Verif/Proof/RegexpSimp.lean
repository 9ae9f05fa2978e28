import Verif.Proof.RegexpComp
/-!
# Simplifying keeps what a tree fits; trees and regular expressions
-/
namespace Gofer.Regexp
open Gofer.Spec.Regexp (Times Re Item Place Fits Like Word WordBefore WordAt)

/-! ## Repetition -/

theorem times_congr {R S : Nat → Nat → Prop} (h : ∀ i j, R i j ↔ S i j) : ∀ (n i j : Nat), Times R n i j ↔ Times S n i j
  | 0, _, _ => Iff.rfl
  | n + 1, i, j => by
    simp only [Times]
    exact exists_congr fun k => and_congr (h i k) (times_congr h n k j)

theorem times_add (R : Nat → Nat → Prop) : ∀ (n m i j : Nat), Times R (n + m) i j ↔ ∃ k, Times R n i k ∧ Times R m k j
  | 0, m, i, j => by simp [Times]
  | n + 1, m, i, j => by
    rw [Nat.add_right_comm]
    simp only [Times, times_add R n m]
    constructor
    · rintro ⟨k, h, l, h1, h2⟩; exact ⟨l, ⟨k, h, h1⟩, h2⟩
    · rintro ⟨l, ⟨k, h, h1⟩, h2⟩; exact ⟨k, h, l, h1, h2⟩

theorem times_one (R : Nat → Nat → Prop) (i j : Nat) : Times R 1 i j ↔ R i j := by
  simp [Times]

theorem times_eq : ∀ (n i j : Nat), Times (fun i j => i = j) n i j ↔ i = j
  | 0, _, _ => Iff.rfl
  | n + 1, i, j => by simp [Times, times_eq n]

/-- Many times many times is many times. -/
theorem times_flat (R : Nat → Nat → Prop) (lo : Nat) (hlo : lo ≤ 1) : ∀ (n i j : Nat), lo ≤ n → Times (fun i j => ∃ m, lo ≤ m ∧ Times R m i j) n i j → ∃ m, lo ≤ m ∧ Times R m i j
  | 0, i, j, h, ht => ⟨0, h, ht⟩
  | n + 1, i, j, _, ⟨k, ⟨m, hm, h1⟩, h2⟩ => by
    by_cases hn : lo ≤ n
    · obtain ⟨m', _, h3⟩ := times_flat R lo hlo n k j hn h2
      exact ⟨m + m', by omega, (times_add R m m' i j).2 ⟨k, h1, h3⟩⟩
    · have : n = 0 := by omega
      subst this
      simp only [Times] at h2
      subst h2
      exact ⟨m, hm, h1⟩

section
variable {fold : Nat → Nat → Bool} {w : List Nat}

theorem star1_ok (l : Bool) (t : Tree) (i j : Nat) : TFits fold w (star1 l t) i j ↔ ∃ n, Times (TFits fold w t) n i j := by
  unfold star1
  split
  · simp only [TFits]
    constructor
    · rintro rfl; exact ⟨0, rfl⟩
    · rintro ⟨n, h⟩
      exact (times_eq n i j).1 h
  · split
    · simp only [TFits]
      constructor
      · exact fun h => ⟨1, (times_one _ i j).2 h⟩
      · rintro ⟨n, h⟩
        rename_i u _
        obtain ⟨m, _, hm⟩ := times_flat (TFits fold w u) 0 (by omega) n i j (by omega) ((times_congr (by simp) n i j).1 h)
        exact ⟨m, hm⟩
    · rfl
  · rfl

theorem plus1_ok (l : Bool) (t : Tree) (i j : Nat) : TFits fold w (plus1 l t) i j ↔ ∃ n, 1 ≤ n ∧ Times (TFits fold w t) n i j := by
  unfold plus1
  split
  · simp only [TFits]
    constructor
    · rintro rfl; exact ⟨1, by omega, (times_one _ i i).2 rfl⟩
    · rintro ⟨n, _, h⟩
      exact (times_eq n i j).1 h
  · split
    · simp only [TFits]
      constructor
      · exact fun h => ⟨1, by omega, (times_one _ i j).2 h⟩
      · rintro ⟨n, hn, h⟩
        exact times_flat _ 1 (by omega) n i j hn h
    · rfl
  · rfl

theorem quest1_ok (l : Bool) (t : Tree) (i j : Nat) : TFits fold w (quest1 l t) i j ↔ i = j ∨ TFits fold w t i j := by
  unfold quest1
  split
  · simp [TFits]
  · split
    · simp only [TFits]
      constructor
      · rintro (h | h)
        · exact .inl h
        · exact .inr (.inr h)
      · rintro (h | h | h)
        · exact .inl h
        · exact .inl h
        · exact .inr h
    · rfl
  · rfl

theorem copies_ok (t : Tree) (i j : Nat) : ∀ (n : Nat), TFits fold w (copies n t) i j ↔ Times (TFits fold w t) n i j
  | 0 => Iff.rfl
  | 1 => (times_one _ i j).symm
  | n + 2 => by
    rw [times_add _ (n + 1) 1]
    simp only [copies, TFits]
    have ih : ∀ j, TFits fold w (copies (n + 1) t) i j ↔ _ := fun j => copies_ok t i j (n + 1)
    simp only [ih, times_one]

theorem nest_ok (l : Bool) (t : Tree) : ∀ (n i j : Nat), TFits fold w (nest l t n) i j ↔ ∃ m, m ≤ n + 1 ∧ Times (TFits fold w t) m i j
  | 0, i, j => by
    simp only [nest, quest1_ok]
    constructor
    · rintro (h | h)
      · exact ⟨0, by omega, h⟩
      · exact ⟨1, by omega, (times_one _ i j).2 h⟩
    · rintro ⟨m, hm, h⟩
      have : m = 0 ∨ m = 1 := by omega
      rcases this with rfl | rfl
      · exact .inl h
      · exact .inr ((times_one _ i j).1 h)
  | n + 1, i, j => by
    simp only [nest, quest1_ok, TFits, nest_ok l t n]
    constructor
    · rintro (h | ⟨k, h, m, hm, h'⟩)
      · exact ⟨0, by omega, h⟩
      · exact ⟨m + 1, by omega, k, h, h'⟩
    · rintro ⟨m, hm, h⟩
      cases m with
      | zero => exact .inl h
      | succ m =>
        obtain ⟨k, h, h'⟩ := h
        exact .inr ⟨k, h, m, by omega, h'⟩

theorem expand_ok (lo : Nat) (hi : Option Nat) (l : Bool) (t : Tree) (hh : ∀ m ∈ hi, lo ≤ m) (i j : Nat) :
    TFits fold w (expand lo hi l t) i j ↔ ∃ n, lo ≤ n ∧ (∀ m ∈ hi, n ≤ m) ∧ Times (TFits fold w t) n i j := by
  unfold expand
  cases hi with
  | none =>
    simp only [Option.not_mem_none, false_implies, implies_true, true_and]
    split
    · rename_i h0
      subst h0
      simp [star1_ok]
    · split
      · rename_i h1
        subst h1
        exact plus1_ok l t i j
      · rename_i h0 h1
        simp only [TFits, copies_ok, plus1_ok]
        constructor
        · rintro ⟨k, h2, m, hm, h3⟩
          exact ⟨lo - 1 + m, by omega, (times_add _ _ _ i j).2 ⟨k, h2, h3⟩⟩
        · rintro ⟨n, hn, h⟩
          obtain ⟨d, rfl⟩ : ∃ d, n = lo - 1 + (d + 1) := ⟨n - lo, by omega⟩
          obtain ⟨k, h2, h3⟩ := (times_add _ _ _ i j).1 h
          exact ⟨k, h2, d + 1, by omega, h3⟩
  | some m =>
    have hle := hh m rfl
    simp only [Option.mem_def, Option.some.injEq, forall_eq']
    split
    · rename_i h0
      obtain ⟨rfl, rfl⟩ := h0
      simp only [TFits]
      constructor
      · exact fun h => ⟨0, by omega, by omega, h⟩
      · rintro ⟨n, _, hn, h⟩
        have : n = 0 := by omega
        subst this
        exact h
    · split
      · rename_i h0
        obtain ⟨rfl, rfl⟩ := h0
        constructor
        · exact fun h => ⟨1, by omega, by omega, (times_one _ i j).2 h⟩
        · rintro ⟨n, h1, hn, h⟩
          have : n = 1 := by omega
          subst this
          exact (times_one _ i j).1 h
      · split
        · rename_i hlt
          split
          · rename_i h0
            subst h0
            rw [nest_ok]
            constructor
            · rintro ⟨n, hn, h⟩; exact ⟨n, by omega, by omega, h⟩
            · rintro ⟨n, _, hn, h⟩; exact ⟨n, by omega, h⟩
          · simp only [TFits, copies_ok, nest_ok]
            constructor
            · rintro ⟨k, h2, n, hn, h3⟩
              exact ⟨lo + n, by omega, by omega, (times_add _ _ _ i j).2 ⟨k, h2, h3⟩⟩
            · rintro ⟨n, hn, hn', h⟩
              obtain ⟨d, rfl⟩ : ∃ d, n = lo + d := ⟨n - lo, by omega⟩
              obtain ⟨k, h2, h3⟩ := (times_add _ _ _ i j).1 h
              exact ⟨k, h2, d, by omega, h3⟩
        · have : lo = m := by omega
          subst this
          rw [copies_ok]
          constructor
          · exact fun h => ⟨lo, by omega, by omega, h⟩
          · rintro ⟨n, h1, h2, h⟩
            have : n = lo := by omega
            subst this
            exact h

/-- In `{n,m}` the first number is not bigger. -/
def Ordered : Tree → Prop
  | .rep lo hi _ t => (∀ m ∈ hi, lo ≤ m) ∧ Ordered t
  | .cap _ t => Ordered t
  | .star _ t => Ordered t
  | .plus _ t => Ordered t
  | .quest _ t => Ordered t
  | .cat a b => Ordered a ∧ Ordered b
  | .alt a b => Ordered a ∧ Ordered b
  | _ => True

theorem simplify_ok : ∀ (t : Tree), Ordered t → ∀ i j, TFits fold w (simplify t) i j ↔ TFits fold w t i j
  | .empty, _ => fun _ _ => Iff.rfl
  | .test _, _ => fun _ _ => Iff.rfl
  | .place _, _ => fun _ _ => Iff.rfl
  | .cap _ t, h => simplify_ok t h
  | .star l t, h => fun i j => by
    simp only [simplify, star1_ok, TFits]
    exact exists_congr fun n => times_congr (simplify_ok t h) n i j
  | .plus l t, h => fun i j => by
    simp only [simplify, plus1_ok, TFits]
    exact exists_congr fun n => and_congr Iff.rfl (times_congr (simplify_ok t h) n i j)
  | .quest l t, h => fun i j => by
    simp only [simplify, quest1_ok, TFits, simplify_ok t h]
  | .rep lo hi l t, h => fun i j => by
    simp only [simplify, TFits]
    rw [expand_ok lo hi l _ h.1]
    exact exists_congr fun n => and_congr Iff.rfl (and_congr Iff.rfl (times_congr (simplify_ok t h.2) n i j))
  | .cat a b, h => fun i j => by
    simp only [simplify, TFits, simplify_ok a h.1, simplify_ok b h.2]
  | .alt a b, h => fun i j => by
    simp only [simplify, TFits, simplify_ok a h.1, simplify_ok b h.2]

end

theorem star1_noRep (l : Bool) {t : Tree} (h : NoRep t) : NoRep (star1 l t) := by
  unfold star1
  split
  · trivial
  · split <;> exact h
  · exact h

theorem plus1_noRep (l : Bool) {t : Tree} (h : NoRep t) : NoRep (plus1 l t) := by
  unfold plus1
  split
  · trivial
  · split <;> exact h
  · exact h

theorem quest1_noRep (l : Bool) {t : Tree} (h : NoRep t) : NoRep (quest1 l t) := by
  unfold quest1
  split
  · trivial
  · split <;> exact h
  · exact h

theorem copies_noRep {t : Tree} (h : NoRep t) : ∀ n, NoRep (copies n t)
  | 0 => trivial
  | 1 => h
  | n + 2 => ⟨copies_noRep h (n + 1), h⟩

theorem nest_noRep (l : Bool) {t : Tree} (h : NoRep t) : ∀ n, NoRep (nest l t n)
  | 0 => quest1_noRep l h
  | n + 1 => quest1_noRep l (t := .cat t (nest l t n)) ⟨h, nest_noRep l h n⟩

theorem expand_noRep (lo : Nat) (hi : Option Nat) (l : Bool) {t : Tree} (h : NoRep t) : NoRep (expand lo hi l t) := by
  unfold expand
  split
  · split
    · exact star1_noRep l h
    · split
      · exact plus1_noRep l h
      · exact ⟨copies_noRep h _, plus1_noRep l h⟩
  · split
    · trivial
    · split
      · exact h
      · split
        · split
          · exact nest_noRep l h _
          · exact ⟨copies_noRep h _, nest_noRep l h _⟩
        · exact copies_noRep h _

theorem simplify_noRep : ∀ (t : Tree), NoRep (simplify t)
  | .empty => trivial
  | .test _ => trivial
  | .place _ => trivial
  | .cap _ t => simplify_noRep t
  | .star l t => star1_noRep l (simplify_noRep t)
  | .plus l t => plus1_noRep l (simplify_noRep t)
  | .quest l t => quest1_noRep l (simplify_noRep t)
  | .rep lo hi l t => expand_noRep lo hi l (simplify_noRep t)
  | .cat a b => ⟨simplify_noRep a, simplify_noRep b⟩
  | .alt a b => ⟨simplify_noRep a, simplify_noRep b⟩

/-! ## The tests and places -/

section
variable (fold : Nat → Nat → Bool) (w : List Nat)

theorem like_iff (i : Bool) (c r : Nat) : like fold i c r = true ↔ Like fold i c r := by
  simp [like, Like]

theorem inRange_iff (i : Bool) (lo hi r : Nat) : inRange fold i lo hi r = true ↔ ∃ c, lo ≤ c ∧ c ≤ hi ∧ Like fold i c r := by
  unfold inRange
  cases i
  · simp [Like]
  · simp only [if_true, List.any_eq_true, List.mem_range, Bool.and_eq_true, decide_eq_true_eq, like_iff]
    constructor
    · rintro ⟨c, h1, h2, h3⟩; exact ⟨c, h2, by omega, h3⟩
    · rintro ⟨c, h1, h2, h3⟩; exact ⟨c, by omega, h1, h3⟩

theorem bne_iff (b neg : Bool) (P : Prop) (h : b = true ↔ P) : (b != neg) = true ↔ (P ↔ neg = false) := by
  rw [← h]
  cases b <;> cases neg <;> simp

theorem inItem_iff (i : Bool) (r : Nat) (x : Item) : inItem fold i r x = true ↔ x.Has fold i r := by
  cases x with
  | range lo hi => exact inRange_iff fold i lo hi r
  | group neg g =>
    refine bne_iff _ neg _ ?_
    simp only [List.any_eq_true, inRange_iff]

/-- What a test stands for. -/
def Test.re : Test → Re
  | .lit i c => .chr i c
  | .cls i neg l => .cls i neg l
  | .any => .any true
  | .anyNotNL => .any false

theorem any_iff (i : Nat) (f : Nat → Bool) : (w[i]?.any f) = true ↔ ∃ r, w[i]? = some r ∧ f r = true := by
  cases w[i]? <;> simp

theorem test_iff (t : Test) (i j : Nat) : TFits fold w (.test t) i j ↔ Fits fold w t.re i j := by
  simp only [TFits, any_iff]
  cases t with
  | lit f c => simp only [Test.ok, Test.re, Fits, like_iff]
  | cls f neg l =>
    simp only [Test.ok, Test.re, Fits]
    refine and_congr Iff.rfl (exists_congr fun r => and_congr Iff.rfl (bne_iff _ neg _ ?_))
    simp only [List.any_eq_true, inItem_iff]
  | any => simp [Test.ok, Test.re, Fits]
  | anyNotNL => simp [Test.ok, Test.re, Fits]

theorem isWord_iff (x : Option Nat) : isWord x = true ↔ ∃ c, x = some c ∧ Word c := by
  cases x with
  | none => simp [isWord]
  | some c =>
    simp only [isWord, Bool.or_eq_true, Bool.and_eq_true, decide_eq_true_eq, Option.some.injEq, exists_eq_left', Word]
    omega

theorem before_iff (i : Nat) (c : Nat) : before w i = some c ↔ ∃ k, i = k + 1 ∧ w[k]? = some c := by
  unfold before
  cases i with
  | zero => simp
  | succ k => simp

theorem wordBefore_iff (i : Nat) : isWord (before w i) = true ↔ WordBefore w i := by
  rw [isWord_iff]
  simp only [before_iff, WordBefore]
  constructor
  · rintro ⟨c, ⟨k, h1, h2⟩, h3⟩; exact ⟨k, c, h1, h2, h3⟩
  · rintro ⟨k, c, h1, h2, h3⟩; exact ⟨c, ⟨k, h1, h2⟩, h3⟩

theorem before_none (i : Nat) (h : i ≤ w.length) : before w i = none ↔ i = 0 := by
  unfold before
  split
  · simp_all
  · simp only [List.getElem?_eq_none_iff]
    omega

theorem placeOk_iff (x : Place) (i : Nat) (h : i ≤ w.length) : placeOk w i x = true ↔ x.Holds w i := by
  have hn : w[i]? = none ↔ i = w.length := by
    rw [List.getElem?_eq_none_iff]; omega
  cases x with
  | textBegin => simp only [placeOk, Option.isNone_iff_eq_none, before_none w i h, Place.Holds]
  | textEnd => simp only [placeOk, Option.isNone_iff_eq_none, hn, Place.Holds]
  | lineBegin => simp only [placeOk, Bool.or_eq_true, decide_eq_true_eq, before_none w i h, before_iff, Place.Holds]
  | lineEnd => simp only [placeOk, Bool.or_eq_true, decide_eq_true_eq, hn, Place.Holds]
  | border =>
    simp only [placeOk, Place.Holds]
    rw [← wordBefore_iff, WordAt, ← isWord_iff]
    cases isWord (before w i) <;> cases isWord w[i]? <;> simp
  | noBorder =>
    simp only [placeOk, Place.Holds]
    rw [← wordBefore_iff, WordAt, ← isWord_iff]
    cases isWord (before w i) <;> cases isWord w[i]? <;> simp

/-! ## Within the text -/

theorem times_le {R : Nat → Nat → Prop} {b : Nat} (h : ∀ i j, i ≤ b → R i j → j ≤ b) : ∀ (n i j : Nat), i ≤ b → Times R n i j → j ≤ b
  | 0, _, _, hi, ht => by simp only [Times] at ht; omega
  | n + 1, i, j, hi, ⟨k, h1, h2⟩ => times_le h n k j (h i k hi h1) h2

theorem fits_le : ∀ (e : Re) (i j : Nat), i ≤ w.length → Fits fold w e i j → j ≤ w.length
  | .eps, i, j, hi, h => by simp only [Fits] at h; omega
  | .chr _ _, i, j, hi, ⟨h, r, hr, _⟩ => by have := (List.getElem?_eq_some_iff.1 hr).1; omega
  | .any _, i, j, hi, ⟨h, r, hr, _⟩ => by have := (List.getElem?_eq_some_iff.1 hr).1; omega
  | .cls _ _ _, i, j, hi, ⟨h, r, hr, _⟩ => by have := (List.getElem?_eq_some_iff.1 hr).1; omega
  | .at _, i, j, hi, ⟨h, _⟩ => by omega
  | .cat a b, i, j, hi, ⟨k, h1, h2⟩ => fits_le b k j (fits_le a i k hi h1) h2
  | .alt a b, i, j, hi, h => h.elim (fits_le a i j hi) (fits_le b i j hi)
  | .rep a _ _, i, j, hi, ⟨n, _, _, h⟩ => times_le (fun i j => fits_le a i j) n i j hi h

theorem times_congr_le {R S : Nat → Nat → Prop} {b : Nat} (hS : ∀ i j, i ≤ b → S i j → j ≤ b) (h : ∀ i j, i ≤ b → (R i j ↔ S i j)) : ∀ (n i j : Nat), i ≤ b → (Times R n i j ↔ Times S n i j)
  | 0, _, _, _ => Iff.rfl
  | n + 1, i, j, hi => by
    simp only [Times]
    refine exists_congr fun k => ?_
    rw [h i k hi]
    exact and_congr_right fun hk => times_congr_le hS h n k j (hS i k hi hk)

end

/-- How many copies nested repetitions make. -/
def wt : Tree → Nat
  | .cap _ t => wt t
  | .star _ t => wt t
  | .plus _ t => wt t
  | .quest _ t => wt t
  | .rep lo hi _ t => if hi = some 0 then 1 else max 1 (hi.getD lo) * wt t
  | .cat a b => max (wt a) (wt b)
  | .alt a b => max (wt a) (wt b)
  | _ => 1

theorem wt_pos : ∀ (t : Tree), 1 ≤ wt t
  | .empty => Nat.le_refl 1
  | .test _ => Nat.le_refl 1
  | .place _ => Nat.le_refl 1
  | .cap _ t => wt_pos t
  | .star _ t => wt_pos t
  | .plus _ t => wt_pos t
  | .quest _ t => wt_pos t
  | .rep lo hi _ t => by
    have := wt_pos t
    simp only [wt]
    split
    · omega
    · have := Nat.mul_le_mul (Nat.le_max_left 1 (hi.getD lo)) this
      omega
  | .cat a b => by have := wt_pos a; simp only [wt]; omega
  | .alt a b => by have := wt_pos a; simp only [wt]; omega

theorem valid_iff : ∀ (t : Tree) (n : Nat), 1 ≤ n → (repeatIsValid t n = true ↔ wt t ≤ n)
  | .empty, n, h => by simp [repeatIsValid, wt, h]
  | .test _, n, h => by simp [repeatIsValid, wt, h]
  | .place _, n, h => by simp [repeatIsValid, wt, h]
  | .cap _ t, n, h => by simpa only [repeatIsValid, wt] using valid_iff t n h
  | .star _ t, n, h => by simpa only [repeatIsValid, wt] using valid_iff t n h
  | .plus _ t, n, h => by simpa only [repeatIsValid, wt] using valid_iff t n h
  | .quest _ t, n, h => by simpa only [repeatIsValid, wt] using valid_iff t n h
  | .rep lo hi _ t, n, h => by
    simp only [repeatIsValid, wt]
    by_cases h0 : hi = some 0
    · simp [h0, h]
    · simp only [h0, if_false]
      generalize hi.getD lo = m
      have hp := wt_pos t
      by_cases hm : n < m
      · simp only [hm, if_true, Bool.false_eq_true, false_iff, Nat.not_le]
        have : m ≤ max 1 m * wt t := by
          have := Nat.mul_le_mul (Nat.le_max_right 1 m) hp
          omega
        omega
      · simp only [hm, if_false]
        by_cases hz : 0 < m
        · have e : max 1 m = m := by omega
          rw [if_pos hz, e, valid_iff t (n / m) (Nat.div_pos (by omega) hz), Nat.le_div_iff_mul_le hz, Nat.mul_comm]
        · have e : max 1 m = 1 := by omega
          rw [if_neg hz, e, Nat.one_mul, valid_iff t n h]
  | .cat a b, n, h => by simp only [repeatIsValid, wt, Bool.and_eq_true, valid_iff a n h, valid_iff b n h]; omega
  | .alt a b, n, h => by simp only [repeatIsValid, wt, Bool.and_eq_true, valid_iff a n h, valid_iff b n h]; omega

/-- The tree fits what the expression fits, and repetitions nest to the same number. -/
structure Sim (t : Tree) (e : Re) : Prop where
  fits : ∀ (fold : Nat → Nat → Bool) (w : List Nat) (i j : Nat), i ≤ w.length → (TFits fold w t i j ↔ Fits fold w e i j)
  weight : wt t = e.weight
  ordered : Ordered t

theorem weight_pos {t : Tree} {e : Re} (h : Sim t e) : 1 ≤ e.weight := h.weight ▸ wt_pos t

theorem sim_eps : Sim .empty .eps := ⟨fun _ _ _ _ _ => Iff.rfl, rfl, trivial⟩

theorem sim_test (t : Test) : Sim (.test t) t.re := ⟨fun fold w i j _ => test_iff fold w t i j, by cases t <;> rfl, trivial⟩

theorem sim_place (x : Place) : Sim (.place x) (.at x) :=
  ⟨fun fold w i j h => by simp only [TFits, Fits, placeOk_iff w x i h], rfl, trivial⟩

theorem sim_cap (n : Nat) {t : Tree} {e : Re} (h : Sim t e) : Sim (.cap n t) e := ⟨h.fits, h.weight, h.ordered⟩

theorem sim_cat {t u : Tree} {e d : Re} (h : Sim t e) (h' : Sim u d) : Sim (.cat t u) (.cat e d) := by
  refine ⟨fun fold w i j hi => ?_, by simp only [wt, Re.weight, h.weight, h'.weight], h.ordered, h'.ordered⟩
  simp only [TFits, Fits]
  refine exists_congr fun k => ?_
  rw [h.fits fold w i k hi]
  exact and_congr_right fun hk => h'.fits fold w k j (fits_le fold w e i k hi hk)

theorem sim_cat_eps {u : Tree} {e d : Re} (h : Sim .empty e) (h' : Sim u d) : Sim u (.cat e d) := by
  have hc := sim_cat h h'
  refine ⟨fun fold w i j hi => ?_, ?_, h'.ordered⟩
  · rw [← hc.fits fold w i j hi]
    simp [TFits]
  · rw [← hc.weight]
    have := wt_pos u
    simp only [wt]
    omega

theorem sim_alt {t u : Tree} {e d : Re} (h : Sim t e) (h' : Sim u d) : Sim (.alt t u) (.alt e d) := by
  refine ⟨fun fold w i j hi => ?_, by simp only [wt, Re.weight, h.weight, h'.weight], h.ordered, h'.ordered⟩
  simp only [TFits, Fits, h.fits fold w i j hi, h'.fits fold w i j hi]

theorem sim_times {t : Tree} {e : Re} (h : Sim t e) (fold : Nat → Nat → Bool) (w : List Nat) (n i j : Nat) (hi : i ≤ w.length) : Times (TFits fold w t) n i j ↔ Times (Fits fold w e) n i j :=
  times_congr_le (fun i j => fits_le fold w e i j) (fun i j => h.fits fold w i j) n i j hi

theorem sim_star (l : Bool) {t : Tree} {e : Re} (h : Sim t e) : Sim (.star l t) (.rep e 0 none) := by
  refine ⟨fun fold w i j hi => ?_, by simp [wt, Re.weight, h.weight], h.ordered⟩
  simp [TFits, Fits, sim_times h fold w _ i j hi]

theorem sim_plus (l : Bool) {t : Tree} {e : Re} (h : Sim t e) : Sim (.plus l t) (.rep e 1 none) := by
  refine ⟨fun fold w i j hi => ?_, by simp [wt, Re.weight, h.weight], h.ordered⟩
  simp [TFits, Fits, sim_times h fold w _ i j hi]

theorem sim_quest (l : Bool) {t : Tree} {e : Re} (h : Sim t e) : Sim (.quest l t) (.rep e 0 (some 1)) := by
  refine ⟨fun fold w i j hi => ?_, by simp [wt, Re.weight, h.weight], h.ordered⟩
  simp only [TFits, Fits, Option.mem_def, Option.some.injEq, forall_eq', h.fits fold w i j hi]
  constructor
  · rintro (h | h)
    · exact ⟨0, by omega, by omega, h⟩
    · exact ⟨1, by omega, by omega, (times_one _ i j).2 h⟩
  · rintro ⟨n, _, hn, h⟩
    have : n = 0 ∨ n = 1 := by omega
    rcases this with rfl | rfl
    · exact .inl h
    · exact .inr ((times_one _ i j).1 h)

theorem sim_rep (lo : Nat) (hi : Option Nat) (l : Bool) {t : Tree} {e : Re} (hle : ∀ m ∈ hi, lo ≤ m) (h : Sim t e) : Sim (.rep lo hi l t) (.rep e lo hi) := by
  refine ⟨fun fold w i j hi => ?_, ?_, hle, h.ordered⟩
  · simp only [TFits, Fits, sim_times h fold w _ i j hi]
  · simp only [wt, h.weight]
    rcases hi with _ | _ | m
    · simp [Re.weight]
    · simp [Re.weight]
    · simp [Re.weight]

end Gofer.Regexp
