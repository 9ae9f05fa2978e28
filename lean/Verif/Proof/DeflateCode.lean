import Verif.Model.Inflate
import Mathlib.Tactic.Ring
import Mathlib.Tactic.Linarith
/-!
# Huffman codes: no code is the begin of another, and the decoder finds them
-/
namespace Gofer.Inflate
open Gofer.Spec.Deflate (Bits Bytes low high bits bit bitsOf first Code Coding)

/-! ## Numbers and bits -/

theorem high_append (a b : Bits) : high (a ++ b) = high a * 2 ^ b.length + high b := by
  induction a with
  | nil => simp [high]
  | cons x a ih =>
    simp only [List.cons_append, high, ih, List.length_append, pow_add]
    ring

theorem bit_le (b : Bool) : bit b ≤ 1 := by cases b <;> simp [bit]

theorem high_lt (a : Bits) : high a < 2 ^ a.length := by
  induction a with
  | nil => simp [high]
  | cons x a ih =>
    simp only [high, List.length_cons, pow_succ]
    have := bit_le x
    have h2 : bit x * 2 ^ a.length ≤ 1 * 2 ^ a.length := Nat.mul_le_mul_right _ this
    omega

theorem low_lt (a : Bits) : low a < 2 ^ a.length := by
  induction a with
  | nil => simp [low]
  | cons x a ih =>
    simp only [low, List.length_cons, pow_succ]
    have := bit_le x
    omega

theorem take_iff (n : Nat) (b : Bits) (x : Nat) (r : Bits) : take n b = some (x, r) ↔ ∃ e, e.length = n ∧ b = e ++ r ∧ x = low e := by
  unfold take
  by_cases h : b.length < n
  · rw [if_pos h]
    constructor
    · intro h'; simp at h'
    · rintro ⟨e, h1, rfl, _⟩
      simp only [List.length_append] at h
      omega
  · rw [if_neg h]
    constructor
    · intro h'
      simp only [Option.some.injEq, Prod.mk.injEq] at h'
      refine ⟨b.take n, by simp; omega, ?_, h'.1.symm⟩
      rw [← h'.2, List.take_append_drop]
    · rintro ⟨e, rfl, rfl, rfl⟩
      simp

/-! ## Counting codes -/

theorem first_cons (a : Nat) (l : List Nat) (n : Nat) : first (a :: l) n = (if 0 < a ∧ a < n then 2 ^ (n - a) else 0) + first l n := by
  unfold first
  by_cases h : 0 < a ∧ a < n
  · rw [if_pos h, List.filter_cons_of_pos (by simpa using h)]
    simp
  · rw [if_neg h, List.filter_cons_of_neg (by simpa using h)]
    simp

theorem first_succ (l : List Nat) (n : Nat) : first l (n + 1) = (first l n + count l n) * 2 := by
  induction l with
  | nil => simp [first, count]
  | cons a l ih =>
    rw [first_cons, first_cons, ih]
    unfold count
    by_cases hn : n = 0
    · subst hn
      have h1 : ¬ (0 < a ∧ a < 0 + 1) := by omega
      have h2 : ¬ (0 < a ∧ a < 0) := by omega
      rw [if_neg h1, if_neg h2]
      simp
    · rw [if_neg hn, if_neg hn, List.count_cons]
      by_cases ha : a = n
      · subst ha
        have h1 : 0 < a ∧ a < a + 1 := by omega
        rw [if_pos h1]
        simp only [lt_self_iff_false, and_false, if_false, beq_self_eq_true, if_true]
        have : a + 1 - a = 1 := by omega
        rw [this]
        ring
      · have hb : (a == n) = false := by simpa using ha
        rw [hb]
        by_cases h1 : 0 < a ∧ a < n
        · have h2 : 0 < a ∧ a < n + 1 := by omega
          rw [if_pos h1, if_pos h2]
          have : n + 1 - a = (n - a) + 1 := by omega
          rw [this, pow_succ]
          simp only [Bool.false_eq_true, if_false]
          ring
        · have h2 : ¬ (0 < a ∧ a < n + 1) := by omega
          rw [if_neg h1, if_neg h2]
          simp

theorem nextcode_first (l : List Nat) (n : Nat) : nextcode l n = first l n := by
  induction n with
  | zero =>
    unfold nextcode first
    rw [List.filter_eq_nil_iff.2 (by simp)]
    rfl
  | succ n ih => rw [nextcode, ih, first_succ]

theorem assign_mem (next : Nat → Nat) (s : Nat) (l : List Nat) (n v t : Nat) :
    (n, v, t) ∈ assign next s l ↔ ∃ i, l[i]? = some n ∧ n ≠ 0 ∧ t = s + i ∧ v = next n + (l.take i).count n := by
  induction l generalizing next s with
  | nil => simp [assign]
  | cons a l ih =>
    unfold assign
    by_cases ha : a = 0
    · rw [if_pos ha, ih]
      subst ha
      constructor
      · rintro ⟨i, h1, h2, h3, h4⟩
        refine ⟨i + 1, by simpa using h1, h2, by omega, ?_⟩
        rw [List.take_succ_cons, List.count_cons_of_ne (fun h => h2 h.symm)]
        exact h4
      · rintro ⟨i, h1, h2, h3, h4⟩
        cases i with
        | zero => simp at h1; omega
        | succ i =>
          rw [List.take_succ_cons, List.count_cons_of_ne (fun h => h2 h.symm)] at h4
          exact ⟨i, by simpa using h1, h2, by omega, h4⟩
    · rw [if_neg ha, List.mem_cons, ih]
      constructor
      · rintro (h | ⟨i, h1, h2, h3, h4⟩)
        · simp only [Prod.mk.injEq] at h
          obtain ⟨rfl, rfl, rfl⟩ := h
          exact ⟨0, by simp, ha, by omega, by simp⟩
        · refine ⟨i + 1, by simpa using h1, h2, by omega, ?_⟩
          rw [List.take_succ_cons, List.count_cons, h4]
          by_cases hn : n = a
          · subst hn
            simp only [if_true, beq_self_eq_true]
            omega
          · have : (a == n) = false := by simpa using fun h => hn h.symm
            rw [if_neg hn, this]
            simp
      · rintro ⟨i, h1, h2, h3, h4⟩
        cases i with
        | zero =>
          simp at h1
          subst h1
          left
          simp at h4 h3
          rw [h3, h4]
        | succ i =>
          right
          refine ⟨i, by simpa using h1, h2, by omega, ?_⟩
          rw [List.take_succ_cons, List.count_cons] at h4
          rw [h4]
          by_cases hn : n = a
          · subst hn
            simp only [if_true, beq_self_eq_true]
            omega
          · have : (a == n) = false := by simpa using fun h => hn h.symm
            rw [if_neg hn, this]
            simp

theorem code_iff (l : List Nat) (s : Nat) (c : Bits) : Code l s c ↔ (c.length, high c, s) ∈ assign (nextcode l) 0 l := by
  rw [assign_mem]
  constructor
  · rintro ⟨n, h1, h2, rfl, h4⟩
    exact ⟨s, h1, by omega, by omega, by rw [nextcode_first]; exact h4⟩
  · rintro ⟨i, h1, h2, h3, h4⟩
    have : i = s := by omega
    subst this
    exact ⟨_, h1, by omega, rfl, by rw [nextcode_first] at h4; exact h4⟩

/-! ## Codes in their order -/

/-- The strings of 15 bits that begin with a code shorter than `n`. -/
def before (l : List Nat) (n : Nat) : Nat := ((l.filter fun x => 0 < x ∧ x < n).map fun x => 2 ^ (15 - x)).sum

theorem before_cons (a : Nat) (l : List Nat) (n : Nat) : before (a :: l) n = (if 0 < a ∧ a < n then 2 ^ (15 - a) else 0) + before l n := by
  unfold before
  by_cases h : 0 < a ∧ a < n
  · rw [if_pos h, List.filter_cons_of_pos (by simpa using h)]
    simp
  · rw [if_neg h, List.filter_cons_of_neg (by simpa using h)]
    simp

theorem first_before (l : List Nat) (n : Nat) (hn : n ≤ 15) : first l n * 2 ^ (15 - n) = before l n := by
  induction l with
  | nil => simp [first, before]
  | cons a l ih =>
    rw [first_cons, before_cons, Nat.add_mul, ih]
    by_cases h : 0 < a ∧ a < n
    · rw [if_pos h, if_pos h, ← pow_add]
      have : n - a + (15 - n) = 15 - a := by omega
      rw [this]
    · rw [if_neg h, if_neg h]
      simp

theorem before_step (l : List Nat) (n n' : Nat) (h0 : 0 < n) (h : n < n') : before l n + l.count n * 2 ^ (15 - n) ≤ before l n' := by
  induction l with
  | nil => simp [before]
  | cons a l ih =>
    rw [before_cons, before_cons, List.count_cons]
    by_cases ha : a = n
    · subst ha
      have h1 : ¬ (0 < a ∧ a < a) := by omega
      have h2 : 0 < a ∧ a < n' := ⟨h0, h⟩
      rw [if_neg h1, if_pos h2]
      simp only [beq_self_eq_true, if_true]
      rw [Nat.add_mul]
      omega
    · have hb : (a == n) = false := by simpa using ha
      rw [hb]
      simp only [Bool.false_eq_true, if_false, Nat.add_zero]
      by_cases h1 : 0 < a ∧ a < n
      · have h2 : 0 < a ∧ a < n' := by omega
        rw [if_pos h1, if_pos h2]
        omega
      · rw [if_neg h1]
        omega

theorem count_take_lt (l : List Nat) (s n : Nat) (h : l[s]? = some n) : (l.take s).count n + 1 ≤ l.count n := by
  have h1 := (List.take_append_drop s l)
  have h2 : l.drop s = n :: l.drop (s + 1) := by
    obtain ⟨hs, hn⟩ := List.getElem?_eq_some_iff.1 h
    rw [List.drop_eq_getElem_cons hs, hn]
  calc (l.take s).count n + 1 ≤ (l.take s).count n + (l.drop s).count n := by
        rw [h2, List.count_cons_self]
        omega
    _ = l.count n := by rw [← List.count_append, h1]

theorem count_take_step (l : List Nat) (s s' n : Nat) (h : l[s]? = some n) (hs : s < s') : (l.take s).count n + 1 ≤ (l.take s').count n := by
  have h1 : (l.take s') = l.take s ++ (l.take s').drop s := by
    have := (List.take_append_drop s (l.take s')).symm
    rwa [List.take_take, min_eq_left (by omega)] at this
  have hl := (List.getElem?_eq_some_iff.1 h).1
  have h2 : (l.take s').drop s = n :: (l.take s').drop (s + 1) := by
    have hs' : s < (l.take s').length := by simp; omega
    rw [List.drop_eq_getElem_cons hs', List.getElem_take]
    rw [(List.getElem?_eq_some_iff.1 h).2]
  rw [h1, List.count_append, h2, List.count_cons_self]
  omega

/-- The place of a code among all strings of 15 bits. -/
theorem code_place (l : List Nat) (s s' n n' : Nat) (h : l[s]? = some n) (h' : l[s']? = some n') (h0 : 0 < n) (hn : n ≤ 15) (hn' : n' ≤ 15)
    (hlt : n < n' ∨ (n = n' ∧ s < s')) :
    (first l n + (l.take s).count n + 1) * 2 ^ (15 - n) ≤ (first l n' + (l.take s').count n') * 2 ^ (15 - n') := by
  rw [Nat.add_mul, Nat.add_mul, first_before l n hn, Nat.add_mul, first_before l n' hn']
  rcases hlt with hlt | ⟨rfl, hlt⟩
  · have h1 := before_step l n n' h0 hlt
    have h2 := count_take_lt l s n h
    have h3 : ((l.take s).count n + 1) * 2 ^ (15 - n) ≤ l.count n * 2 ^ (15 - n) := Nat.mul_le_mul_right _ h2
    rw [Nat.add_mul] at h3
    omega
  · have h2 := count_take_step l s s' n h hlt
    have h3 : ((l.take s).count n + 1) * 2 ^ (15 - n) ≤ (l.take s').count n * 2 ^ (15 - n) := Nat.mul_le_mul_right _ h2
    rw [Nat.add_mul] at h3
    omega

theorem code_prefix_le (l : List Nat) (hl : ∀ x ∈ l, x ≤ 15) (s s' : Nat) (c e : Bits) (h : Code l s c) (h' : Code l s' (c ++ e)) : s = s' := by
  obtain ⟨n, a1, a2, a3, a4⟩ := h
  obtain ⟨n', b1, b2, b3, b4⟩ := h'
  have hn := hl n (List.mem_of_getElem? a1)
  have hn' := hl n' (List.mem_of_getElem? b1)
  rw [List.length_append] at b3
  rw [high_append] at b4
  have he := high_lt e
  have hsplit : 2 ^ (15 - n) = 2 ^ e.length * 2 ^ (15 - n') := by
    rw [← pow_add]
    congr 1
    omega
  have hpos : 0 < 2 ^ (15 - n') := Nat.pow_pos (by decide)
  by_contra hne
  by_cases hlt : n < n' ∨ (n = n' ∧ s < s')
  · have := code_place l s s' n n' a1 b1 a2 hn hn' hlt
    rw [← a4, ← b4, hsplit, ← Nat.mul_assoc] at this
    have := Nat.le_of_mul_le_mul_right this hpos
    rw [Nat.add_mul] at this
    omega
  · have hnn : n = n' := by omega
    subst hnn
    have hs : s' < s := by omega
    have := code_place l s' s n n b1 a1 a2 hn hn (.inr ⟨rfl, hs⟩)
    rw [← a4, ← b4] at this
    have := Nat.le_of_mul_le_mul_right this hpos
    have he0 : e.length = 0 := by omega
    rw [he0] at this
    simp at this
    omega

/-- No code is the begin of another. -/
theorem code_prefix (l : List Nat) (hl : ∀ x ∈ l, x ≤ 15) (s s' : Nat) (c c' r r' : Bits) (h : Code l s c) (h' : Code l s' c') (he : c ++ r = c' ++ r') :
    s = s' ∧ c = c' ∧ r = r' := by
  have key : s = s' := by
    rcases List.append_eq_append_iff.1 he with ⟨a, rfl, _⟩ | ⟨a, rfl, _⟩
    · exact code_prefix_le l hl s s' c a h h'
    · exact (code_prefix_le l hl s' s c' a h' h).symm
  subst key
  obtain ⟨n, a1, a2, a3, a4⟩ := h
  obtain ⟨n', b1, b2, b3, b4⟩ := h'
  rw [a1] at b1
  cases b1
  obtain ⟨h1, h2⟩ := List.append_inj he (a3.trans b3.symm)
  exact ⟨rfl, h1, h2⟩

/-! ## `huffSym` -/

/-- The decoder of the codes with the lengths `l`. -/
def Decodes (h : Huff) (l : List Nat) : Prop := h.codes = assign (nextcode l) 0 l ∧ ∀ x ∈ l, x ≤ 15

theorem huffSym_iff {h : Huff} {l : List Nat} (hd : Decodes h l) (b : Bits) (s : Nat) (r : Bits) :
    huffSym h b = some (s, r) ↔ h.min ≤ b.length ∧ ∃ c, Code l s c ∧ b = c ++ r := by
  unfold huffSym
  by_cases hm : b.length < h.min
  · rw [if_pos hm]
    constructor
    · intro h; simp at h
    · rintro ⟨h1, _⟩; omega
  · rw [if_neg hm]
    have found : ∀ e, h.codes.find? (fun c => c.1 ≤ b.length ∧ high (b.take c.1) = c.2.1) = some e →
        Code l e.2.2 (b.take e.1) ∧ b = b.take e.1 ++ b.drop e.1 := by
      intro e he
      have h1 := List.find?_some he
      have h2 := List.mem_of_find?_eq_some he
      simp only [decide_eq_true_eq] at h1
      rw [hd.1] at h2
      refine ⟨?_, (List.take_append_drop _ _).symm⟩
      rw [code_iff]
      have : (b.take e.1).length = e.1 := by simp; omega
      rw [this, h1.2]
      exact h2
    cases hf : h.codes.find? (fun c => c.1 ≤ b.length ∧ high (b.take c.1) = c.2.1) with
    | none =>
      simp only []
      constructor
      · intro h; simp at h
      · rintro ⟨_, c, hc, rfl⟩
        rw [code_iff, ← hd.1] at hc
        have := List.find?_eq_none.1 hf _ hc
        simp at this
    | some e =>
      obtain ⟨h1, h2⟩ := found e hf
      simp only [Option.some.injEq, Prod.mk.injEq]
      constructor
      · rintro ⟨rfl, rfl⟩
        exact ⟨by omega, _, h1, h2⟩
      · rintro ⟨_, c, hc, hb⟩
        obtain ⟨k1, k2, k3⟩ := code_prefix l hd.2 _ _ _ _ _ _ h1 hc (h2.symm.trans hb)
        exact ⟨k1, k3⟩

theorem huffSym_lt {h : Huff} {l : List Nat} (hd : Decodes h l) {b : Bits} {s : Nat} {r : Bits} (hs : huffSym h b = some (s, r)) : r.length < b.length ∧ s < l.length := by
  obtain ⟨_, c, ⟨n, h1, h2, h3, _⟩, rfl⟩ := (huffSym_iff hd b s r).1 hs
  refine ⟨by simp; omega, (List.getElem?_eq_some_iff.1 h1).1⟩

/-! ## `init` -/

theorem foldl_min_le (l : List Nat) (a : Nat) : l.foldl (fun m n => if n < m then n else m) a ≤ a ∧ ∀ x ∈ l, l.foldl (fun m n => if n < m then n else m) a ≤ x := by
  induction l generalizing a with
  | nil => simp
  | cons b l ih =>
    simp only [List.foldl_cons, List.mem_cons, forall_eq_or_imp]
    by_cases h : b < a
    · simp only [h, if_true]
      exact ⟨by have := (ih b).1; omega, (ih b).1, (ih b).2⟩
    · simp only [h, if_false]
      exact ⟨(ih a).1, by have := (ih a).1; omega, (ih a).2⟩

theorem foldl_max_le (l : List Nat) (a : Nat) : a ≤ l.foldl (fun m n => if n > m then n else m) a ∧ (∀ x ∈ l, x ≤ l.foldl (fun m n => if n > m then n else m) a) ∧
    l.foldl (fun m n => if n > m then n else m) a ∈ a :: l := by
  induction l generalizing a with
  | nil => simp
  | cons b l ih =>
    simp only [List.foldl_cons, List.mem_cons, forall_eq_or_imp]
    by_cases h : b > a
    · simp only [h, if_true]
      have h3 := (ih b).2.2
      simp only [List.mem_cons] at h3
      exact ⟨by have := (ih b).1; omega, ⟨(ih b).1, (ih b).2.1⟩, .inr h3⟩
    · simp only [h, if_false]
      have h3 := (ih a).2.2
      simp only [List.mem_cons] at h3
      refine ⟨(ih a).1, ⟨by have := (ih a).1; omega, (ih a).2.1⟩, ?_⟩
      rcases h3 with h3 | h3
      · exact .inl h3
      · exact .inr (.inr h3)

/-- All codes: those that are not longer than `m`, if no code is. -/
theorem first_all (l : List Nat) (m : Nat) (hm : ∀ x ∈ l, x ≤ m) (hm0 : m ≠ 0) :
    first l m + count l m = ((l.filter fun x => 0 < x).map fun x => 2 ^ (m - x)).sum := by
  induction l with
  | nil => simp [first, count]
  | cons a l ih =>
    have ih' := ih (fun x hx => hm x (by simp [hx]))
    have ha := hm a (by simp)
    rw [first_cons]
    unfold count at ih' ⊢
    rw [if_neg hm0] at ih' ⊢
    rw [List.count_cons]
    by_cases h0 : 0 < a
    · rw [List.filter_cons_of_pos (by simpa using h0), List.map_cons, List.sum_cons, ← ih']
      by_cases h1 : a = m
      · subst h1
        simp
        omega
      · have : (a == m) = false := by simpa using h1
        rw [this, if_pos ⟨h0, by omega⟩]
        simp
        omega
    · rw [List.filter_cons_of_neg (by simpa using h0), ← ih']
      have : (a == m) = false := by simp; omega
      rw [this, if_neg (fun h => h0 h.1)]
      simp

theorem sum_scale (l : List Nat) (m : Nat) (hm : ∀ x ∈ l, x ≤ m) (h15 : m ≤ 15) :
    ((l.map fun x => 2 ^ (m - x)).sum) * 2 ^ (15 - m) = (l.map fun x => 2 ^ (15 - x)).sum := by
  induction l with
  | nil => simp
  | cons a l ih =>
    have ha := hm a (by simp)
    rw [List.map_cons, List.sum_cons, List.map_cons, List.sum_cons, Nat.add_mul, ih (fun x hx => hm x (by simp [hx])), ← pow_add]
    have : m - a + (15 - m) = 15 - a := by omega
    rw [this]

theorem init_iff (l : List Nat) (hl : ∀ x ∈ l, x ≤ 15) (h : Huff) :
    init l = some h ↔ Coding l ∧ Decodes h l ∧ h.min = (init l).elim 0 (·.min) := by
  have hfil : (l.filter fun n => n ≠ 0) = l.filter fun x => 0 < x := by
    apply List.filter_congr
    intro x _
    simp [Nat.pos_iff_ne_zero]
  have mk : ∀ m, init l = some ⟨m, assign (nextcode l) 0 l⟩ → Coding l → (init l = some h ↔ Coding l ∧ Decodes h l ∧ h.min = (init l).elim 0 (·.min)) := by
    intro m hm ht
    rw [hm]
    constructor
    · intro hh
      cases hh
      exact ⟨ht, ⟨rfl, hl⟩, rfl⟩
    · rintro ⟨_, h1, h2⟩
      obtain ⟨a, b⟩ := h
      simp only [Option.elim_some] at h2
      rw [Option.some.injEq, Huff.mk.injEq]
      exact ⟨h2.symm, h1.1.symm⟩
  cases hu : l.filter fun n => n ≠ 0 with
  | nil =>
    have e0 : assign (nextcode l) 0 l = [] := by
      rw [List.eq_nil_iff_forall_not_mem]
      rintro ⟨n, v, t⟩ hm
      obtain ⟨i, h1, h2, _⟩ := (assign_mem _ _ _ _ _ _).1 hm
      have : n ∈ l.filter fun n => n ≠ 0 := by simp [List.mem_of_getElem? h1, h2]
      rw [hu] at this
      simp at this
    refine mk 0 ?_ ⟨hl, .inr (.inr (by rw [← hfil, hu]))⟩
    unfold init
    simp only [hu, e0]
  | cons a u =>
    have hmax := foldl_max_le u a
    generalize hM : u.foldl (fun m n => if n > m then n else m) a = M at hmax
    have hMmem : M ∈ l.filter fun n => n ≠ 0 := by rw [hu]; exact hmax.2.2
    have hM0 : M ≠ 0 := by
      have := (List.mem_filter.1 hMmem).2
      simpa using this
    have hM15 : M ≤ 15 := hl M (List.mem_filter.1 hMmem).1
    have hle : ∀ x ∈ l, x ≤ M := by
      intro x hx
      by_cases h0 : x = 0
      · omega
      · have : x ∈ l.filter fun n => n ≠ 0 := by simp [hx, h0]
        rw [hu] at this
        rcases List.mem_cons.1 this with rfl | h
        · exact hmax.1
        · exact hmax.2.1 x h
    have hcode : nextcode l M + count l M = ((a :: u).map fun x => 2 ^ (M - x)).sum := by
      rw [nextcode_first, first_all l M hle hM0, ← hfil, hu]
    have hscale := sum_scale (a :: u) M (fun x hx => hle x (List.mem_filter.1 (hu ▸ hx)).1) hM15
    have hinit : init l = if nextcode l M + count l M ≠ 2 ^ M ∧ ¬ (nextcode l M + count l M = 1 ∧ M = 1) then none
        else some ⟨u.foldl (fun m n => if n < m then n else m) a, assign (nextcode l) 0 l⟩ := by
      unfold init
      simp only [hu, hM]
    have hpow : 2 ^ M * 2 ^ (15 - M) = 2 ^ 15 := by
      rw [← pow_add]
      congr 1
      omega
    have htree : Coding l ↔ ¬ (nextcode l M + count l M ≠ 2 ^ M ∧ ¬ (nextcode l M + count l M = 1 ∧ M = 1)) := by
      unfold Coding
      rw [← hfil, hu]
      constructor
      · rintro ⟨_, h | h | h⟩ ⟨h1, h2⟩
        · apply h1
          rw [hcode]
          rw [← hscale, ← hpow] at h
          exact Nat.eq_of_mul_eq_mul_right (Nat.pow_pos (by decide)) h
        · cases h
          simp at hM
          subst hM
          apply h2
          rw [hcode]
          simp
        · simp at h
      · intro h
        refine ⟨hl, ?_⟩
        by_cases h1 : nextcode l M + count l M = 2 ^ M
        · left
          rw [← hscale, ← hcode, h1, hpow]
        · right; left
          have h2 : nextcode l M + count l M = 1 ∧ M = 1 := by
            by_contra h2
            exact h ⟨h1, h2⟩
          rw [hcode, h2.2] at h2
          have ha : a = 1 := by
            have h3 := hle a (List.mem_filter.1 (hu ▸ List.mem_cons_self)).1
            have h4 := (List.mem_filter.1 (hu ▸ List.mem_cons_self : a ∈ l.filter fun n => n ≠ 0)).2
            simp at h4
            omega
          subst ha
          cases u with
          | nil => rfl
          | cons b u =>
            have := h2.1
            simp only [List.map_cons, List.sum_cons] at this
            have p1 : 0 < 2 ^ (1 - 1) := Nat.pow_pos (by decide)
            have p2 : 0 < 2 ^ (1 - b) := Nat.pow_pos (by decide)
            omega
    by_cases ht : Coding l
    · refine mk (u.foldl (fun m n => if n < m then n else m) a) ?_ ht
      rw [hinit, if_neg (htree.1 ht)]
    · constructor
      · intro hh
        rw [hinit, if_pos (by by_contra hc; exact ht (htree.2 hc))] at hh
        simp at hh
      · intro hh
        exact absurd hh.1 ht

theorem init_min {l : List Nat} {h : Huff} (hi : init l = some h) (s : Nat) (c : Bits) (hc : Code l s c) : h.min ≤ c.length := by
  obtain ⟨n, h1, h2, h3, _⟩ := hc
  have hm : n ∈ l.filter fun n => n ≠ 0 := by simp [List.mem_of_getElem? h1]; omega
  unfold init at hi
  cases hu : l.filter fun n => n ≠ 0 with
  | nil => rw [hu] at hm; simp at hm
  | cons a u =>
    rw [hu] at hm
    simp only [hu] at hi
    split at hi
    · simp at hi
    · simp only [Option.some.injEq] at hi
      subst hi
      have := foldl_min_le u a
      rw [h3]
      rcases List.mem_cons.1 hm with rfl | h
      · exact this.1
      · exact this.2 n h

theorem init_tree {l : List Nat} (ht : Coding l) : ∃ h, init l = some h ∧ Decodes h l := by
  refine ⟨⟨(init l).elim 0 (·.min), assign (nextcode l) 0 l⟩, ?_, rfl, ht.1⟩
  rw [init_iff l ht.1]
  exact ⟨ht, ⟨rfl, ht.1⟩, rfl⟩

end Gofer.Inflate
