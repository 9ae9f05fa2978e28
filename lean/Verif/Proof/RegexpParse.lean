import Verif.Proof.RegexpSimp
import Verif.Proof.Json
/-!
# The parser reads patterns as they are meant
-/
namespace Gofer.Regexp
open Relation
open Gofer.Spec.Json (Bytes Scalar utf8)
open Gofer.Spec.Regexp

/-! ## Strings -/

theorem decode_scalar (c : Nat) (hc : Scalar c) (r : Bytes) : Json.decodeRune (utf8 c ++ r) = (c, (utf8 c).length) := by
  by_cases h : c < 128
  · obtain ⟨b, hb, e, e2⟩ := Json.utf8_small c h
    rw [e]
    subst e2
    simp only [List.cons_append, List.nil_append, Json.decodeRune, List.length_cons, List.length_nil]
    rw [if_pos (by exact hb)]
  · exact Json.decodeRune_utf8 c hc (by omega) r

theorem utf8_pos (c : Nat) : 1 ≤ (utf8 c).length := by
  unfold utf8
  split
  · simp
  · split
    · simp
    · split <;> simp

theorem runesGo_ok {s : Bytes} {w : List Nat} (h : Runes s w) : ∀ f, s.length ≤ f → runesGo f s = w := by
  induction h with
  | nil => intro f _; cases f <;> rfl
  | good c s w hc _ ih =>
    intro f hf
    have hp := utf8_pos c
    have hd := decode_scalar c hc s
    rw [List.length_append] at hf
    cases f with
    | zero => omega
    | succ f =>
      cases e : utf8 c with
      | nil => rw [e] at hp; simp at hp
      | cons b l =>
        rw [e] at hd
        simp only [List.cons_append, runesGo] at hd ⊢
        rw [hd]
        simp only [List.length_cons, List.drop_succ_cons, List.drop_left']
        rw [ih f (by omega)]
  | bad b s w hb _ ih =>
    intro f hf
    have hd : Json.decodeRune (b :: s) = (Json.runeError, 1) := by
      by_cases h : b < 128
      · obtain ⟨h1, h2⟩ := Json.utf8_ascii b h
        exact absurd ⟨s, by rw [h2]; rfl⟩ (hb _ h1)
      · rcases Json.decodeRune_cases b s h with h | ⟨c, r, h1, _, h3, _⟩
        · exact h
        · exact absurd ⟨r, h3.symm⟩ (hb c h1)
    cases f with
    | zero => simp at hf
    | succ f =>
      simp only [runesGo, hd, List.drop_succ_cons, List.drop_zero]
      rw [ih f (by simpa using hf)]
      rfl

theorem runes_ok {s : Bytes} {w : List Nat} (h : Runes s w) : runes s = w := runesGo_ok h _ (Nat.le_refl _)

theorem patternGo_ok : ∀ (t : List Nat), (∀ c ∈ t, Scalar c) → ∀ f, (t.flatMap utf8).length ≤ f → patternGo f (t.flatMap utf8) = some t
  | [], _, f, _ => by cases f <;> rfl
  | c :: t, h, f, hf => by
    have hc := h c List.mem_cons_self
    have hp := utf8_pos c
    have hd := decode_scalar c hc (t.flatMap utf8)
    rw [List.flatMap_cons] at hf ⊢
    rw [List.length_append] at hf
    have hne : ¬ (c = Json.runeError ∧ (utf8 c).length = 1) := by
      rintro ⟨h1, h2⟩
      subst h1
      exact absurd h2 (by decide +kernel)
    cases f with
    | zero => omega
    | succ f =>
      cases e : utf8 c with
      | nil => rw [e] at hp; simp at hp
      | cons b l =>
        rw [e] at hd hne
        simp only [List.cons_append, patternGo] at hd ⊢
        rw [hd]
        simp only [List.length_cons, List.drop_succ_cons, List.drop_left'] at hne ⊢
        rw [if_neg hne, patternGo_ok t (fun x hx => h x (List.mem_cons_of_mem _ hx)) f (by omega)]
        rfl

theorem pattern_ok (t : List Nat) (h : ∀ c ∈ t, Scalar c) : pattern (t.flatMap utf8) = some t := patternGo_ok t h _ (Nat.le_refl _)

/-! ## Escapes -/

theorem unhex_eq (c : Nat) : unhex c = hexDigit c := by
  unfold unhex hexDigit
  split
  · rfl
  · split
    · rename_i h; congr 1; omega
    · split
      · rename_i h; congr 1; omega
      · rfl

theorem hex_mono {n m : Nat} {l : List Nat} (h : Hex n l m) : n ≤ m := by
  induction h with
  | nil => omega
  | cons => omega

theorem digit_not_brace {c v : Nat} (h : hexDigit c = some v) : c ≠ 125 ∧ c ≠ 123 := by
  unfold hexDigit at h
  constructor
  · rintro rfl; simp at h
  · rintro rfl; simp at h

theorem hexBrace_ok {n m : Nat} {l : List Nat} (h : Hex n l m) (hm : m < 0x110000) : ∀ (saw : Bool) (r : List Nat), (saw = true ∨ l ≠ []) → hexBrace n saw (l ++ 125 :: r) = some (m, r) := by
  induction h with
  | nil n =>
    intro saw r hs
    have : saw = true := by simpa using hs
    subst this
    simp [hexBrace]
  | cons n c v m l hv hl ih =>
    intro saw r _
    have := hex_mono hl
    simp only [List.cons_append, hexBrace]
    rw [if_neg (digit_not_brace hv).1, unhex_eq, hv]
    simp only
    rw [if_neg (by omega)]
    exact ih hm true r (.inl rfl)

theorem isAlnum_iff (c : Nat) : isAlnum c = true ↔ Word c ∧ c ≠ 95 := by
  simp only [isAlnum, Bool.or_eq_true, Bool.and_eq_true, decide_eq_true_eq, Word]
  omega

/-- An escape begins with a backslash and is read up to its end; the character after the backslash is none that means something else. -/
theorem escape_ok {t : List Nat} {c : Nat} (h : Esc t c) : ∃ x u, t = 92 :: x :: u ∧ (∀ r, escape (x :: (u ++ r)) = some (c, r)) ∧
    x ∉ [65, 66, 67, 68, 80, 81, 83, 87, 98, 100, 112, 115, 119, 122] := by
  cases h with
  | punct c h1 h2 =>
    refine ⟨c, [], rfl, fun r => ?_, ?_⟩
    · have ha : isAlnum c = false := by
        rw [← Bool.not_eq_true, isAlnum_iff]
        exact h2
      have hw := h2
      unfold Word at hw
      simp only [escape, List.nil_append]
      rw [if_neg (by omega), if_neg (by omega), if_neg (by omega), if_neg (by omega), if_neg (by omega), if_neg (by omega), if_neg (by omega), if_neg (by omega), if_neg (by omega)]
      simp [h1, ha]
    · intro h
      apply h2
      simp only [List.mem_cons, List.not_mem_nil, or_false] at h
      unfold Word
      omega
  | named x c h =>
    simp only [List.mem_cons, Prod.mk.injEq, List.not_mem_nil, or_false] at h
    rcases h with ⟨rfl, rfl⟩ | ⟨rfl, rfl⟩ | ⟨rfl, rfl⟩ | ⟨rfl, rfl⟩ | ⟨rfl, rfl⟩ | ⟨rfl, rfl⟩ <;> exact ⟨_, [], rfl, fun r => by simp [escape], by decide⟩
  | hex2 a b c h =>
    refine ⟨120, [a, b], rfl, fun r => ?_, by decide⟩
    cases h with
    | cons _ _ v _ _ hv h =>
      cases h with
      | cons _ _ v' _ _ hv' h =>
        cases h
        simp only [escape, hexEscape, List.cons_append, List.nil_append]
        simp only [show ¬ (49 ≤ 120 ∧ 120 ≤ 55) by omega, if_false, show ¬ 120 = 48 by omega, if_true]
        rw [if_neg (digit_not_brace hv).2, unhex_eq, unhex_eq, hv, hv']
        simp
  | hexn l c hl h hc =>
    refine ⟨120, 123 :: (l ++ [125]), rfl, fun r => ?_, by decide⟩
    simp only [escape, hexEscape, List.cons_append, List.append_assoc, List.nil_append]
    simp only [show ¬ (49 ≤ 120 ∧ 120 ≤ 55) by omega, if_false, show ¬ 120 = 48 by omega, if_true]
    exact hexBrace_ok h hc false r (.inr hl)

theorem group_ok {t : List Nat} {x : Item} (h : Group t x) : ∃ y, t = [92, y] ∧ perlGroup y = some x ∧ y ∉ [65, 66, 67, 80, 81, 98, 112, 122] := by
  cases h <;> exact ⟨_, rfl, rfl, by decide⟩

theorem perlGroup_none {x : Nat} (h : x ∉ [65, 66, 67, 68, 80, 81, 83, 87, 98, 100, 112, 115, 119, 122]) : perlGroup x = none := by
  simp only [List.mem_cons, List.not_mem_nil, or_false, not_or] at h
  unfold perlGroup
  rw [if_neg (by omega), if_neg (by omega), if_neg (by omega), if_neg (by omega), if_neg (by omega), if_neg (by omega)]

/-! ## Classes -/

/-- What comes after the items of a class: `]`, or `-]`. -/
def tailOf (last : Bool) (r : List Nat) : List Nat := if last then 45 :: 93 :: r else 93 :: r

theorem classChar_ok {t : List Nat} {c : Nat} (h : ClassChar t c) : (∀ r, classChar (t ++ r) = some (c, r)) ∧ ∃ x u, t = x :: u ∧ x ∉ [45, 91, 93, 94] ∧
    (x = 92 → ∃ y v, u = y :: v ∧ y ∉ [65, 66, 67, 68, 80, 81, 83, 87, 98, 100, 112, 115, 119, 122]) := by
  cases h with
  | plain _ h =>
    simp only [List.mem_cons, List.not_mem_nil, or_false, not_or] at h
    refine ⟨fun r => ?_, c, [], rfl, ?_, fun h' => absurd h' h.2.2.1⟩
    · simp only [List.cons_append, List.nil_append, classChar]
      rw [if_neg h.2.2.1]
    · simp only [List.mem_cons, List.not_mem_nil, or_false, not_or]
      exact ⟨h.1, h.2.1, h.2.2.2.1, h.2.2.2.2⟩
  | esc t c h =>
    obtain ⟨x, u, rfl, h1, h2⟩ := escape_ok h
    refine ⟨fun r => ?_, 92, x :: u, rfl, by decide, fun _ => ⟨x, u, rfl, h2⟩⟩
    simp only [List.cons_append, classChar, if_true]
    exact h1 r

/-- A single character is not taken for the begin of a range. -/
def NoDash (t : List Nat) : Prop := ¬ (2 ≤ t.length ∧ t[0]? = some 45 ∧ t[1]? ≠ some 93)

theorem items_noDash {t : List Nat} {l : List Item} (h : Items t l) (last : Bool) (r : List Nat) : NoDash (t ++ tailOf last r) ∧ (t ++ tailOf last r).head? ≠ some 94 := by
  cases h with
  | nil => cases last <;> simp [NoDash, tailOf]
  | one t r' c l hc _ =>
    obtain ⟨_, x, u, rfl, hx, _⟩ := classChar_ok hc
    simp only [List.mem_cons, List.not_mem_nil, or_false, not_or] at hx
    simp [NoDash, hx.1, hx.2.2.2]
  | range t u r' lo hi l hc _ _ _ =>
    obtain ⟨_, x, u, rfl, hx, _⟩ := classChar_ok hc
    simp only [List.mem_cons, List.not_mem_nil, or_false, not_or] at hx
    simp [NoDash, hx.1, hx.2.2.2]
  | group t r' x l hg _ =>
    obtain ⟨y, rfl, _⟩ := group_ok hg
    simp [NoDash]

/-- A round of the loop that reads a character or a range. -/
theorem class_step {x : Nat} {u : List Nat} (hx : x ∉ [45, 91, 93, 94]) (hu : x = 92 → ∃ y v, u = y :: v ∧ y ∉ [65, 66, 67, 68, 80, 81, 83, 87, 98, 100, 112, 115, 119, 122]) (f : Nat) (first : Bool) (acc : List Item) :
    classLoop (f + 1) first acc (x :: u) = match classRange (x :: u) with
      | none => .error .bad
      | some (i, t) => classLoop f false (acc ++ [i]) t := by
  simp only [List.mem_cons, List.not_mem_nil, or_false, not_or] at hx
  simp only [classLoop, List.head?_cons, Option.some.injEq, hx.2.2.1, false_and, if_false, List.length_cons, List.getElem?_cons_zero, hx.2.1, and_false, List.getElem?_cons_succ]
  by_cases h : x = 92
  · obtain ⟨y, v, rfl, hy⟩ := hu h
    have hp := perlGroup_none hy
    simp only [List.mem_cons, List.not_mem_nil, or_false, not_or] at hy
    simp [h, hp, hy]
    rfl
  · simp [h]
    rfl

theorem classLoop_ok {t : List Nat} {l : List Item} (h : Items t l) (last : Bool) (r : List Nat) : ∀ (f : Nat) (first : Bool) (acc : List Item), (t ++ tailOf last r).length < f →
    (first = false ∨ t ≠ [] ∨ last = true) → classLoop f first acc (t ++ tailOf last r) = .ok (acc ++ l ++ (if last then [.range 45 45] else []), r) := by
  induction h with
  | nil =>
    intro f first acc hf hfirst
    simp only [List.nil_append, List.append_nil] at hf ⊢
    cases last with
    | false =>
      have : first = false := by simpa using hfirst
      subst this
      cases f with
      | zero => omega
      | succ f => simp [tailOf, classLoop]
    | true =>
      simp only [tailOf, if_true, List.length_cons] at hf ⊢
      obtain ⟨f, rfl⟩ : ∃ g, f = g + 2 := ⟨f - 2, by omega⟩
      simp [classLoop, classRange, classChar]
  | one t r' c l hc hi ih =>
    intro f first acc hf _
    obtain ⟨h1, x, u, rfl, hx, hu⟩ := classChar_ok hc
    have hn := (items_noDash hi last r).1
    simp only [List.cons_append, List.append_assoc, List.length_cons] at hf ⊢
    cases f with
    | zero => omega
    | succ f =>
      rw [class_step hx fun h => ?_]
      · have hr : classRange (x :: (u ++ (r' ++ tailOf last r))) = some (.range c c, r' ++ tailOf last r) := by
          have := h1 (r' ++ tailOf last r)
          rw [List.cons_append] at this
          simp only [classRange, this]
          rw [if_neg hn]
        rw [hr]
        simp only
        rw [ih f false _ (by rw [List.length_append] at hf; omega) (.inl rfl)]
        simp
      · obtain ⟨y, v, rfl, hy⟩ := hu h
        exact ⟨y, v ++ (r' ++ tailOf last r), rfl, hy⟩
  | range t u' r' lo hi l hlo hhi hle hi' ih =>
    intro f first acc hf _
    obtain ⟨h1, x, u, rfl, hx, hu⟩ := classChar_ok hlo
    obtain ⟨h2, y, v, rfl, hy, _⟩ := classChar_ok hhi
    simp only [List.cons_append, List.append_assoc, List.length_cons] at hf ⊢
    cases f with
    | zero => omega
    | succ f =>
      rw [class_step hx fun h => ?_]
      · have hr : classRange (x :: (u ++ 45 :: y :: (v ++ (r' ++ tailOf last r)))) = some (.range lo hi, r' ++ tailOf last r) := by
          have := h1 (45 :: y :: (v ++ (r' ++ tailOf last r)))
          rw [List.cons_append] at this
          simp only [classRange, this]
          simp only [List.mem_cons, List.not_mem_nil, or_false, not_or] at hy
          rw [if_pos ⟨by simp, by simp, by simp [hy.2.2.1]⟩]
          have := h2 (r' ++ tailOf last r)
          rw [List.cons_append] at this
          simp only [List.tail_cons, this]
          rw [if_neg (by omega)]
        rw [hr]
        simp only
        rw [ih f false _ (by simp only [List.length_append, List.length_cons] at hf ⊢; omega) (.inl rfl)]
        simp
      · obtain ⟨y', v', rfl, hy'⟩ := hu h
        exact ⟨y', v' ++ 45 :: y :: (v ++ (r' ++ tailOf last r)), rfl, hy'⟩
  | group t r' x l hg hi ih =>
    intro f first acc hf _
    obtain ⟨y, rfl, hp, hy⟩ := group_ok hg
    simp only [List.mem_cons, List.not_mem_nil, or_false, not_or] at hy
    simp only [List.cons_append, List.nil_append, List.length_cons] at hf ⊢
    cases f with
    | zero => omega
    | succ f =>
      simp only [classLoop, List.head?_cons, Option.some.injEq, List.length_cons, List.getElem?_cons_zero, List.getElem?_cons_succ, hy]
      simp only [show ¬ 92 = 93 by omega, false_and, if_false, show ¬ 92 = 91 by omega, and_false, or_self, if_true, Option.bind_some, hp, List.drop_succ_cons, List.drop_zero]
      rw [ih f false _ (by omega) (.inl rfl)]
      simp

theorem classBody_ok {t : List Nat} {l : List Item} (h : ClassBody t l) (r : List Nat) :
    (∀ f, (t ++ 93 :: r).length < f → classLoop f true [] (t ++ 93 :: r) = .ok (l, r)) ∧ (t ++ 93 :: r).head? ≠ some 94 := by
  cases h with
  | mk first last t l hi hne =>
    have e : ((if first then [93] else []) ++ t ++ (if last then [45] else [])) ++ 93 :: r = (if first then [93] else []) ++ (t ++ tailOf last r) := by
      cases last <;> simp [tailOf]
    rw [e]
    cases first with
    | false =>
      simp only [Bool.false_eq_true, if_false, List.nil_append, false_or] at hne ⊢
      exact ⟨fun f hf => by rw [classLoop_ok hi last r f true [] hf (.inr hne)]; simp, (items_noDash hi last r).2⟩
    | true =>
      simp only [if_true, List.cons_append, List.nil_append]
      refine ⟨fun f hf => ?_, by simp⟩
      cases f with
      | zero => omega
      | succ f =>
        have hn := (items_noDash hi last r).1
        have hr : classRange (93 :: (t ++ tailOf last r)) = some (.range 93 93, t ++ tailOf last r) := by
          simp only [classRange, classChar]
          simp only [show ¬ 93 = 92 by omega, if_false]
          rw [if_neg hn]
        simp only [classLoop, List.head?_cons, List.length_cons, List.getElem?_cons_zero, Option.some.injEq, hr]
        simp only [Bool.true_eq_false, and_false, if_false, show ¬ 93 = 91 by omega, false_and, show ¬ 93 = 92 by omega]
        rw [classLoop_ok hi last r f false _ (by simp only [List.length_cons] at hf; omega) (.inl rfl)]
        simp

theorem parseClass_ok {t : List Nat} {l : List Item} (h : ClassBody t l) (r : List Nat) : parseClass (t ++ 93 :: r) = .ok (false, l, r) ∧ parseClass (94 :: (t ++ 93 :: r)) = .ok (true, l, r) := by
  obtain ⟨h1, h2⟩ := classBody_ok h r
  constructor
  · simp only [parseClass, h2, decide_false, if_false]
    rw [h1 _ (by omega)]
    rfl
  · simp only [parseClass, List.head?_cons, if_true, List.tail_cons]
    rw [h1 _ (by omega)]
    rfl

/-! ## Numbers -/

theorem number_append (a : List Nat) (d : Nat) : ∀ n m, number n a = some m → m < 100000000 → number n (a ++ [d]) = some (m * 10 + (d - 48)) := by
  induction a with
  | nil =>
    intro n m h hm
    simp only [number, Option.some.injEq] at h
    subst h
    simp only [List.nil_append, number]
    rw [if_neg (by omega)]
  | cons x a ih =>
    intro n m h hm
    simp only [List.cons_append, number] at h ⊢
    split at h
    · cases h
    · rename_i hn
      rw [if_neg hn]
      exact ih _ m h hm

theorem decimal_ok {t : List Nat} {n : Nat} (h : Decimal t n) (hn : n ≤ 1000) : number 0 t = some n ∧ (∀ c ∈ t, isDigit c = true) ∧ t ≠ [] ∧ ¬ (t.head? = some 48 ∧ 1 < t.length) ∧ (1 ≤ n → t.head? ≠ some 48) := by
  induction h with
  | zero => exact ⟨rfl, by simp [isDigit], by simp, by simp, by omega⟩
  | digit d h1 h2 =>
    refine ⟨by simp [number], ?_, by simp, by simp, ?_⟩
    · simp [isDigit]; omega
    · simp; omega
  | more t n d h hpos hd ih =>
    obtain ⟨h1, h2, h3, h4, h5⟩ := ih (by omega)
    have hh := h5 hpos
    have e : (t ++ [48 + d]).head? = t.head? := by
      cases t with
      | nil => exact absurd rfl h3
      | cons => rfl
    refine ⟨?_, ?_, by simp, ?_, ?_⟩
    · rw [number_append t _ 0 n h1 (by omega)]
      congr 1
      omega
    · intro c hc
      rcases List.mem_append.1 hc with hc | hc
      · exact h2 c hc
      · simp only [List.mem_cons, List.not_mem_nil, or_false] at hc
        simp [isDigit, hc]; omega
    · rw [e]; exact fun h => hh h.1
    · rw [e]; exact fun _ => hh

theorem span_digits (t r : List Nat) (h : ∀ c ∈ t, isDigit c = true) (hr : ∀ c ∈ r.head?, isDigit c = false) : (t ++ r).takeWhile isDigit = t ∧ (t ++ r).dropWhile isDigit = r := by
  induction t with
  | nil =>
    cases r with
    | nil => exact ⟨rfl, rfl⟩
    | cons c r =>
      have := hr c rfl
      simp [this]
  | cons c t ih =>
    have hc := h c List.mem_cons_self
    obtain ⟨h1, h2⟩ := ih fun x hx => h x (List.mem_cons_of_mem _ hx)
    simp [hc, h1, h2]

theorem parseInt_ok {t : List Nat} {n : Nat} (h : Decimal t n) (hn : n ≤ 1000) (r : List Nat) (hr : ∀ c ∈ r.head?, isDigit c = false) : parseInt (t ++ r) = some (some n, r) := by
  obtain ⟨h1, h2, h3, h4, _⟩ := decimal_ok h hn
  obtain ⟨e1, e2⟩ := span_digits t r h2 hr
  simp only [parseInt, e1, e2]
  rw [if_neg h3, if_neg h4, h1]

/-! ## Flags -/

def flagsOf (f : Mode) : Flags := ⟨f.i, !f.m, f.s, f.u⟩

def setFlag (fl : Flags) (c : Nat) : Flags :=
  if c = 105 then { fl with fold := true } else if c = 109 then { fl with oneLine := false } else if c = 115 then { fl with dotNL := true } else { fl with nonGreedy := true }

theorem setFlag_on (f : Mode) (c : Nat) : flagsOf (f.set true c) = setFlag (flagsOf f) c := by
  unfold setFlag Mode.set flagsOf
  split <;> try rfl
  split <;> try rfl
  split <;> rfl

theorem setFlag_off (f : Mode) (c : Nat) : (flagsOf (f.set false c)).inv = setFlag (flagsOf f).inv c := by
  unfold setFlag Mode.set flagsOf Flags.inv
  split <;> try rfl
  split <;> try rfl
  split <;> rfl

theorem inv_inv (f : Flags) : f.inv.inv = f := by
  cases f; simp [Flags.inv]

theorem flagLoop_letters (minus : Bool) (r : List Nat) : ∀ (l : List Nat) (fl : Flags) (saw : Bool), Letters l → flagLoop fl minus saw (l ++ r) = flagLoop (l.foldl setFlag fl) minus (saw || !l.isEmpty) r
  | [], fl, saw, _ => by simp
  | c :: l, fl, saw, h => by
    have hc := h c List.mem_cons_self
    have ih := fun fl => flagLoop_letters minus r l fl true fun x hx => h x (List.mem_cons_of_mem _ hx)
    rcases hc with rfl | rfl | rfl | rfl
    · simp only [List.cons_append, List.foldl_cons, flagLoop, if_true, ih]
      simp [setFlag]
    · simp only [List.cons_append, List.foldl_cons, flagLoop, ih]
      simp [setFlag]
    · simp only [List.cons_append, List.foldl_cons, flagLoop, ih]
      simp [setFlag]
    · simp only [List.cons_append, List.foldl_cons, flagLoop, ih]
      simp [setFlag]

theorem fold_on (l : List Nat) : ∀ (f : Mode), l.foldl setFlag (flagsOf f) = flagsOf (l.foldl (fun f c => f.set true c) f) := by
  induction l with
  | nil => intro f; rfl
  | cons c l ih => intro f; rw [List.foldl_cons, List.foldl_cons, ← setFlag_on, ih]

theorem fold_off (l : List Nat) : ∀ (f : Mode), l.foldl setFlag (flagsOf f).inv = (flagsOf (l.foldl (fun f c => f.set false c) f)).inv := by
  induction l with
  | nil => intro f; rfl
  | cons c l ih => intro f; rw [List.foldl_cons, List.foldl_cons, ← setFlag_off, ih]

theorem switch_ok {f f' : Mode} {u : List Nat} (h : Switch f u f') (c : Nat) (hc : c = 58 ∨ c = 41) (r : List Nat) :
    flagLoop (flagsOf f) false false (u ++ c :: r) = some (flagsOf f', decide (c = 58), r) ∧ (u ++ c :: r).head? ≠ some 60 ∧ (u ++ c :: r)[0]? ≠ some 80 := by
  have hend : ∀ (fl : Flags) (minus saw : Bool), (minus && !saw) = false → flagLoop fl minus saw (c :: r) = some (if minus then fl.inv else fl, decide (c = 58), r) := by
    intro fl minus saw h
    have h1 : c ≠ 105 := by omega
    have h2 : c ≠ 109 := by omega
    have h3 : c ≠ 115 := by omega
    have h4 : c ≠ 85 := by omega
    have h5 : c ≠ 45 := by omega
    simp [flagLoop, h1, h2, h3, h4, h5, hc, h]
  have hhead : ∀ (l m : List Nat), Letters l → (∃ x y, m = x :: y ∧ x ≠ 60 ∧ x ≠ 80) → (l ++ m).head? ≠ some 60 ∧ (l ++ m)[0]? ≠ some 80 := by
    rintro l m hl ⟨x, y, rfl, h1, h2⟩
    cases l with
    | nil => simp [h1, h2]
    | cons a l =>
      have := hl a List.mem_cons_self
      simp only [List.cons_append, List.head?_cons, List.getElem?_cons_zero, ne_eq, Option.some.injEq]
      omega
  cases h with
  | on l hl =>
    refine ⟨?_, hhead u _ hl ⟨c, r, rfl, by omega, by omega⟩⟩
    rw [flagLoop_letters false _ _ _ _ hl, fold_on, hend _ _ _ (by simp)]
    simp
  | off l l' hl hl' hne =>
    rw [List.append_assoc, List.cons_append]
    refine ⟨?_, hhead _ _ hl ⟨45, l' ++ c :: r, rfl, by omega, by omega⟩⟩
    rw [flagLoop_letters false _ _ _ _ hl, fold_on]
    simp only [flagLoop]
    simp only [show ¬ 45 = 105 by omega, show ¬ 45 = 109 by omega, show ¬ 45 = 115 by omega, show ¬ 45 = 85 by omega, if_false, if_true, Bool.false_eq_true]
    rw [flagLoop_letters true _ _ _ _ hl', fold_off, hend _ _ _ (by simpa using hne)]
    simp [inv_inv]

/-! ## Rounds of the loop -/

/-- A round that takes something from the text. -/
def Step (x y : P × List Nat) : Prop := step x.1 x.2 = .ok y ∧ y.2.length < x.2.length

def Steps (x y : P × List Nat) : Prop := ReflTransGen Step x y

theorem steps_loop {x y : P × List Nat} (h : Steps x y) (hy : y.2 = []) : ∀ f, x.2.length ≤ f → parseLoop f x.1 x.2 = .ok y.1 := by
  induction h using ReflTransGen.head_induction_on with
  | refl =>
    intro f _
    rw [hy]
    cases f <;> rfl
  | head hs _ ih =>
    rename_i x z hrest
    intro f hf
    obtain ⟨h1, h2⟩ := hs
    cases f with
    | zero => omega
    | succ f =>
      cases e : x.2 with
      | nil => rw [e] at h2; simp at h2
      | cons c t =>
        rw [e] at h1
        simp only [parseLoop, h1]
        exact ih f (by omega)

/-- A repetition. -/
theorem suffix_ok {v : List Nat} {lo : Nat} {hi : Option Nat} (h : Suffix v lo hi) {t : Tree} {a : Re} (hs : Sim t a) (hw : (Re.rep a lo hi).weight ≤ 1000) (s : List Cell) (fl : Flags) (n : Nat) (r : List Nat) (hr : r.head? ≠ some 63) :
    ∃ t', Steps (⟨.tree t :: s, fl, n, false⟩, v ++ r) (⟨.tree t' :: s, fl, n, true⟩, r) ∧ Sim t' (.rep a lo hi) := by
  -- the repetition without a question mark behind it, and what `repeat` does then
  have key : ∀ v r r', Often v lo hi → (∀ (op : Bool → Tree → Tree) (check : Bool), (∀ l, Sim (op l t) (.rep a lo hi)) →
      ∃ l, repeatOp ⟨.tree t :: s, fl, n, false⟩ op check r = .ok (⟨.tree (op l t) :: s, fl, n, true⟩, r')) → r'.length ≤ r.length →
      ∃ t', Steps (⟨.tree t :: s, fl, n, false⟩, v ++ r) (⟨.tree t' :: s, fl, n, true⟩, r') ∧ Sim t' (.rep a lo hi) := by
    intro v r r' ho hrep hlen
    have brace_ok : ∀ (x : List Nat), parseRepeat x = some (some (lo, hi), r) → r.length ≤ x.length → lo ≤ 1000 → (∀ m ∈ hi, m ≤ 1000 ∧ lo ≤ m) →
        ∃ t', Steps (⟨.tree t :: s, fl, n, false⟩, 123 :: x) (⟨.tree t' :: s, fl, n, true⟩, r') ∧ Sim t' (.rep a lo hi) := by
      intro x hd hx h1 h2
      have hsim : ∀ l, Sim (Tree.rep lo hi l t) (.rep a lo hi) := fun l => sim_rep lo hi l (fun m hm => (h2 m hm).2) hs
      obtain ⟨l, hl⟩ := hrep (Tree.rep lo hi) (decide (2 ≤ lo ∨ ∃ m ∈ hi, 2 ≤ m)) hsim
      refine ⟨_, .single ⟨?_, by simp only [List.length_cons]; omega⟩, hsim l⟩
      simp only [step]
      simp only [show ¬ 123 = 40 by omega, show ¬ 123 = 124 by omega, show ¬ 123 = 41 by omega, show ¬ 123 = 94 by omega, show ¬ 123 = 36 by omega, show ¬ 123 = 46 by omega,
        show ¬ 123 = 91 by omega, show ¬ 123 = 42 by omega, show ¬ 123 = 43 by omega, show ¬ 123 = 63 by omega, if_false, if_true]
      simp only [brace, hd]
      rw [if_neg, hl]
      rintro (h | ⟨m, hm, h⟩)
      · omega
      · have := h2 m hm; omega
    cases ho with
    | star =>
      obtain ⟨l, hl⟩ := hrep .star false fun l => sim_star l hs
      exact ⟨_, .single ⟨by simpa [step] using hl, by simp; omega⟩, sim_star l hs⟩
    | plus =>
      obtain ⟨l, hl⟩ := hrep .plus false fun l => sim_plus l hs
      exact ⟨_, .single ⟨by simpa [step] using hl, by simp; omega⟩, sim_plus l hs⟩
    | quest =>
      obtain ⟨l, hl⟩ := hrep .quest false fun l => sim_quest l hs
      exact ⟨_, .single ⟨by simpa [step] using hl, by simp; omega⟩, sim_quest l hs⟩
    | exact d _ hd hn =>
      rw [List.cons_append, List.append_assoc]
      refine brace_ok _ ?_ (by simp; omega) hn (by simp [hn])
      simp only [parseRepeat, List.cons_append, List.nil_append]
      rw [parseInt_ok hd hn (125 :: r) (by simp [isDigit])]
      simp
    | least d _ hd hn =>
      rw [List.cons_append, List.append_assoc]
      refine brace_ok _ ?_ (by simp; omega) hn (by simp)
      simp only [parseRepeat, List.cons_append, List.nil_append]
      rw [parseInt_ok hd hn (44 :: 125 :: r) (by simp [isDigit])]
      simp
    | between d u _ m hd hu hnm hm =>
      rw [List.cons_append, List.append_assoc, List.cons_append, List.append_assoc]
      refine brace_ok _ ?_ (by simp; omega) (by omega) (by simp; omega)
      obtain ⟨_, h2, h3, _⟩ := decimal_ok hu hm
      simp only [parseRepeat, List.cons_append, List.nil_append]
      rw [parseInt_ok hd (by omega) (44 :: (u ++ 125 :: r)) (by simp [isDigit])]
      have e := parseInt_ok hu hm (125 :: r) (by simp [isDigit])
      cases u with
      | nil => exact absurd rfl h3
      | cons c u =>
        have hc : c ≠ 125 := by
          rintro rfl
          exact absurd (h2 125 List.mem_cons_self) (by decide)
        rw [List.cons_append] at e ⊢
        split
        · rename_i h; cases h
        · rename_i h; simp at h; exact absurd h.2.1 hc
        · rename_i h
          simp only [Option.some.injEq, Prod.mk.injEq, List.cons.injEq, true_and] at h
          obtain ⟨rfl, rfl⟩ := h
          rw [e]
          rfl
        · rename_i h; simp at h
        · rename_i h1 h2 h3 h4; exact absurd rfl (h3 _ _)
  have rep_ok : ∀ r r', ((r.head? ≠ some 63 ∧ r' = r) ∨ r = 63 :: r') → ∀ (op : Bool → Tree → Tree) (check : Bool), (∀ l, Sim (op l t) (.rep a lo hi)) →
      ∃ l, repeatOp ⟨.tree t :: s, fl, n, false⟩ op check r = .ok (⟨.tree (op l t) :: s, fl, n, true⟩, r') := by
    intro r r' hr op check hsim
    have hv : ∀ l, repeatIsValid (op l t) 1000 = true := fun l => by
      rw [valid_iff _ _ (by omega), (hsim l).weight]
      exact hw
    rcases hr with ⟨h1, rfl⟩ | rfl
    · exact ⟨fl.nonGreedy, by simp [repeatOp, h1, hv]⟩
    · exact ⟨!fl.nonGreedy, by simp [repeatOp, hv]⟩
  cases h with
  | most _ _ _ ho => exact key v r r ho (rep_ok r r (.inl ⟨hr, rfl⟩)) (Nat.le_refl _)
  | least v _ _ ho =>
    rw [List.append_assoc]
    exact key v (63 :: r) r ho (rep_ok (63 :: r) r (.inr rfl)) (by simp)

/-! ## Expressions -/

def PAtom (f : Mode) (u : List Nat) (a : Re) : Prop := (∃ c v, u = c :: v ∧ c ≠ 63) ∧
  ∀ s n ag r, ∃ t n', Steps (⟨s, flagsOf f, n, ag⟩, u ++ r) (⟨.tree t :: s, flagsOf f, n', false⟩, r) ∧ Sim t a

def PCat (f : Mode) (t : List Nat) (e : Re) (f' : Mode) : Prop := t.head? ≠ some 63 ∧
  ∀ s n ag r, r.head? ≠ some 63 → ∃ ts n' ag', Steps (⟨s, flagsOf f, n, ag⟩, t ++ r) (⟨ts.map .tree ++ s, flagsOf f', n', ag'⟩, r) ∧ Sim (joinCat ts) e

/-- The bottom of an expression on the stack. -/
def Base (s : List Cell) : Prop := s = [] ∨ ∃ c fl s', s = .paren c fl :: s'

/-- Alternatives on the stack, the last one still in parts. -/
def alts (ts as : List Tree) (s : List Cell) : List Cell := ts.map .tree ++ (if as = [] then s else .bar :: (as.map .tree ++ s))

def PAlt (f : Mode) (t : List Nat) (e : Re) (f' : Mode) : Prop := t.head? ≠ some 63 ∧
  ∀ s n ag r, Base s → r.head? ≠ some 63 → ∃ ts as n' ag', Steps (⟨s, flagsOf f, n, ag⟩, t ++ r) (⟨alts ts as s, flagsOf f', n', ag'⟩, r) ∧ Sim (joinAlt (joinCat ts :: as)) e

theorem trees_base {s : List Cell} (h : Base s) : trees s = ([], s) := by
  rcases h with rfl | ⟨c, fl, s', rfl⟩ <;> rfl

theorem trees_map (ts : List Tree) {s : List Cell} (h : trees s = ([], s)) : trees (ts.map .tree ++ s) = (ts, s) := by
  induction ts with
  | nil => exact h
  | cons t ts ih => simp only [List.map_cons, List.cons_append, trees, ih]

theorem concat_alts (ts as : List Tree) {s : List Cell} (h : Base s) : concat (alts ts as s) = .tree (joinCat ts) :: (if as = [] then s else .bar :: (as.map .tree ++ s)) := by
  unfold concat alts
  rw [trees_map]
  split
  · exact trees_base h
  · rfl

theorem swap_base (x : Cell) {s : List Cell} (h : Base s) : swapBar (x :: s) = (x :: s, false) := by
  rcases h with rfl | ⟨c, fl, s', rfl⟩ <;> rfl

theorem verticalBar_ok (ts as : List Tree) {s : List Cell} (h : Base s) : verticalBar (alts ts as s) = alts [] (joinCat ts :: as) s := by
  unfold verticalBar
  rw [concat_alts ts as h]
  by_cases ha : as = []
  · simp only [ha, if_true, swap_base _ h]
    simp [alts]
  · simp only [ha, if_false, swapBar]
    simp [alts]

theorem close_ok (ts as : List Tree) {s : List Cell} (h : Base s) : close (alts ts as s) = .tree (joinAlt (joinCat ts :: as)) :: s := by
  unfold close
  rw [concat_alts ts as h]
  by_cases ha : as = []
  · simp only [ha, if_true, swap_base _ h]
    have := trees_map [joinCat ts] (trees_base h)
    simp only [List.map_cons, List.map_nil, List.cons_append, List.nil_append] at this
    simp [alternate, this]
  · simp only [ha, if_false, swapBar]
    have := trees_map (joinCat ts :: as) (trees_base h)
    simp only [List.map_cons, List.cons_append] at this
    simp [alternate, this]

theorem sim_join {ts : List Tree} {t : Tree} {e a : Re} (h : Sim (joinCat ts) e) (h' : Sim t a) : Sim (joinCat (t :: ts)) (.cat e a) := by
  cases ts with
  | nil => exact sim_cat_eps h h'
  | cons u ts => exact sim_cat h h'

theorem sim_joinAlt {t u : Tree} {as : List Tree} {e d : Re} (h : Sim (joinAlt (u :: as)) e) (h' : Sim t d) : Sim (joinAlt (t :: u :: as)) (.alt e d) := sim_alt h h'

/-- One round that pushes an expression. -/
theorem atom_one {f : Mode} {u : List Nat} {a : Re} (hu : ∃ c v, u = c :: v ∧ c ≠ 63) (t : Tree) (hs : Sim t a)
    (h : ∀ (s : List Cell) (n : Nat) (ag : Bool) (r : List Nat), step ⟨s, flagsOf f, n, ag⟩ (u ++ r) = .ok (⟨.tree t :: s, flagsOf f, n, false⟩, r)) : PAtom f u a := by
  refine ⟨hu, fun s n ag r => ⟨t, n, .single ⟨h s n ag r, ?_⟩, hs⟩⟩
  obtain ⟨c, v, rfl, _⟩ := hu
  simp only [List.cons_append, List.length_cons, List.length_append]
  omega

theorem step_backslash (p : P) (t : List Nat) : step p (92 :: t) = backslash p t := by
  simp [step]

theorem app_head {t r : List Nat} (ht : t.head? ≠ some 63) (hr : r.head? ≠ some 63) : (t ++ r).head? ≠ some 63 := by
  cases t with
  | nil => exact hr
  | cons c t => exact ht

theorem paren_close {f f' f'' : Mode} {t : List Nat} {e : Re} (h : PAlt f' t e f'') (c : Option Nat) (s : List Cell) (n : Nat) (r : List Nat) :
    ∃ x n', Steps (⟨.paren c (flagsOf f) :: s, flagsOf f', n, false⟩, t ++ 41 :: r) (⟨.tree x :: s, flagsOf f, n', false⟩, r) ∧ Sim x e := by
  have hb : Base (.paren c (flagsOf f) :: s) := .inr ⟨_, _, _, rfl⟩
  obtain ⟨ts, as, n', ag', h1, h2⟩ := h.2 (.paren c (flagsOf f) :: s) n false (41 :: r) hb (by simp)
  refine ⟨match c with | none => joinAlt (joinCat ts :: as) | some n => .cap n (joinAlt (joinCat ts :: as)), n', h1.tail ⟨?_, by simp⟩, ?_⟩
  · simp only [step, rightParen, close_ok ts as hb]
    simp only [show ¬ 41 = 40 by omega, show ¬ 41 = 124 by omega, if_false, if_true]
    cases c <;> rfl
  · cases c
    · exact h2
    · exact sim_cap _ h2

mutual
theorem atom_ok {f : Mode} {u : List Nat} {a : Re} (h : Atom f u a) : PAtom f u a := by
  match h with
  | .plain f c hc =>
    simp only [List.mem_cons, List.not_mem_nil, or_false, not_or] at hc
    refine atom_one ⟨c, [], rfl, hc.2.2.2.2.2.2.1⟩ (.test (.lit f.i c)) (sim_test _) fun s n ag r => ?_
    simp [step, hc, P.push, flagsOf]
  | .esc f t c hc =>
    obtain ⟨x, u, rfl, h1, h2⟩ := escape_ok hc
    refine atom_one ⟨92, _, rfl, by omega⟩ (.test (.lit f.i c)) (sim_test _) fun s n ag r => ?_
    have hp := perlGroup_none h2
    simp only [List.mem_cons, List.not_mem_nil, or_false, not_or] at h2
    rw [List.cons_append, step_backslash, List.cons_append]
    simp [backslash, h2, hp, h1, fromOption, Except.map, P.push, flagsOf]
  | .dot f =>
    refine atom_one ⟨46, [], rfl, by omega⟩ (.test (if f.s then .any else .anyNotNL)) ?_ fun s n ag r => ?_
    · cases h : f.s
      · exact sim_test .anyNotNL
      · exact sim_test .any
    · cases h : f.s <;> simp [step, P.push, flagsOf, h]
  | .caret f =>
    refine atom_one ⟨94, [], rfl, by omega⟩ (.place (if f.m then .lineBegin else .textBegin)) (sim_place _) fun s n ag r => ?_
    cases h : f.m <;> simp [step, P.push, flagsOf, h]
  | .dollar f =>
    refine atom_one ⟨36, [], rfl, by omega⟩ (.place (if f.m then .lineEnd else .textEnd)) (sim_place _) fun s n ag r => ?_
    cases h : f.m <;> simp [step, P.push, flagsOf, h]
  | .textBegin f => exact atom_one ⟨92, _, rfl, by omega⟩ _ (sim_place _) fun s n ag r => by simp [step_backslash, backslash, P.push]
  | .textEnd f => exact atom_one ⟨92, _, rfl, by omega⟩ _ (sim_place _) fun s n ag r => by simp [step_backslash, backslash, P.push]
  | .border f => exact atom_one ⟨92, _, rfl, by omega⟩ _ (sim_place _) fun s n ag r => by simp [step_backslash, backslash, P.push]
  | .noBorder f => exact atom_one ⟨92, _, rfl, by omega⟩ _ (sim_place _) fun s n ag r => by simp [step_backslash, backslash, P.push]
  | .group f t x hg =>
    obtain ⟨y, rfl, h1, h2⟩ := group_ok hg
    refine atom_one ⟨92, _, rfl, by omega⟩ (.test (.cls f.i false [x])) (sim_test _) fun s n ag r => ?_
    simp only [List.mem_cons, List.not_mem_nil, or_false, not_or] at h2
    simp [step_backslash, backslash, h1, h2, P.push, flagsOf]
  | .cls f t l hb =>
    refine atom_one ⟨91, _, rfl, by omega⟩ (.test (.cls f.i false l)) (sim_test _) fun s n ag r => ?_
    rw [List.cons_append, List.append_assoc]
    simp [step, (parseClass_ok hb r).1, P.push, flagsOf, Except.map]
  | .noCls f t l hb =>
    refine atom_one ⟨91, _, rfl, by omega⟩ (.test (.cls f.i true l)) (sim_test _) fun s n ag r => ?_
    rw [List.cons_append, List.cons_append, List.append_assoc]
    simp [step, (parseClass_ok hb r).2, P.push, flagsOf, Except.map]
  | .paren f f' t e ha =>
    have ih := alt_ok ha
    refine ⟨⟨40, _, rfl, by omega⟩, fun s n ag r => ?_⟩
    obtain ⟨x, n', h1, h2⟩ := paren_close (f := f) ih (some (n + 1)) s (n + 1) r
    refine ⟨x, n', .head ⟨?_, ?_⟩ h1, h2⟩
    · rw [List.cons_append, List.append_assoc]
      have hh : (t ++ ([41] ++ r)).head? ≠ some 63 := app_head ih.1 (by simp)
      simp only [step, if_true, hh, if_false]
      rfl
    · simp
  | .parenWith f f' f'' t u e hsw ha =>
    have ih := alt_ok ha
    refine ⟨⟨40, _, rfl, by omega⟩, fun s n ag r => ?_⟩
    obtain ⟨x, n', h1, h2⟩ := paren_close (f := f) ih none s n r
    obtain ⟨h3, h4, h5⟩ := switch_ok hsw 58 (.inl rfl) (t ++ 41 :: r)
    refine ⟨x, n', .head ⟨?_, ?_⟩ h1, h2⟩
    · have e : (40 :: 63 :: (u ++ 58 :: (t ++ [41]))) ++ r = 40 :: 63 :: (u ++ 58 :: (t ++ 41 :: r)) := by simp
      rw [e]
      simp only [step, if_true, List.head?_cons, List.tail_cons, perlFlags, h4, h5, false_and, or_self, if_false, h3]
      rfl
    · simp; omega

theorem cat_ok {f f' : Mode} {t : List Nat} {e : Re} (h : Cat f t e f') : PCat f t e f' := by
  match h with
  | .nil f => exact ⟨by simp, fun s n ag r _ => ⟨[], n, ag, .refl, sim_eps⟩⟩
  | .atom f f' t u e a hc ha =>
    have ih := cat_ok hc
    obtain ⟨⟨c, v, rfl, hcv⟩, ih2⟩ := atom_ok ha
    refine ⟨app_head ih.1 (by simpa using hcv), fun s n ag r hr => ?_⟩
    rw [List.append_assoc]
    obtain ⟨ts, n1, ag1, h1, h2⟩ := ih.2 s n ag ((c :: v) ++ r) (by simpa using hcv)
    obtain ⟨x, n2, h3, h4⟩ := ih2 (ts.map .tree ++ s) n1 ag1 r
    exact ⟨x :: ts, n2, false, h1.trans h3, sim_join h2 h4⟩
  | .rep f f' t u v e a lo hi hc ha hs hw =>
    have ih := cat_ok hc
    obtain ⟨⟨c, v', rfl, hcv⟩, ih2⟩ := atom_ok ha
    refine ⟨app_head ih.1 (by simpa using hcv), fun s n ag r hr => ?_⟩
    rw [List.append_assoc, List.append_assoc]
    obtain ⟨ts, n1, ag1, h1, h2⟩ := ih.2 s n ag ((c :: v') ++ (v ++ r)) (by simpa using hcv)
    obtain ⟨x, n2, h3, h4⟩ := ih2 (ts.map .tree ++ s) n1 ag1 (v ++ r)
    obtain ⟨y, h5, h6⟩ := suffix_ok hs h4 hw (ts.map .tree ++ s) (flagsOf f') n2 r hr
    exact ⟨y :: ts, n2, true, (h1.trans h3).trans h5, sim_join h2 h6⟩
  | .switch f f' f'' t u e hc hsw =>
    have ih := cat_ok hc
    refine ⟨app_head ih.1 (by simp), fun s n ag r hr => ?_⟩
    have e : (t ++ 40 :: 63 :: (u ++ [41])) ++ r = t ++ (40 :: 63 :: (u ++ 41 :: r)) := by simp
    rw [e]
    obtain ⟨ts, n1, ag1, h1, h2⟩ := ih.2 s n ag (40 :: 63 :: (u ++ 41 :: r)) (by simp)
    obtain ⟨h3, h4, h5⟩ := switch_ok hsw 41 (.inr rfl) r
    refine ⟨ts, n1, false, h1.tail ⟨?_, by simp; omega⟩, h2⟩
    simp only [step, if_true, List.head?_cons, List.tail_cons, perlFlags, h4, h5, false_and, or_self, if_false, h3]
    rfl

theorem alt_ok {f f' : Mode} {t : List Nat} {e : Re} (h : Alt f t e f') : PAlt f t e f' := by
  match h with
  | .one f f' t e hc =>
    have ih := cat_ok hc
    refine ⟨ih.1, fun s n ag r _ hr => ?_⟩
    obtain ⟨ts, n', ag', h1, h2⟩ := ih.2 s n ag r hr
    refine ⟨ts, [], n', ag', ?_, h2⟩
    simpa [alts] using h1
  | .bar f f' f'' t u e d ha hc =>
    have ih := alt_ok ha
    have ih2 := cat_ok hc
    refine ⟨app_head ih.1 (by simp), fun s n ag r hb hr => ?_⟩
    rw [List.append_assoc, List.cons_append]
    obtain ⟨ts, as, n1, ag1, h1, h2⟩ := ih.2 s n ag (124 :: (u ++ r)) hb (by simp)
    obtain ⟨ts', n2, ag2, h3, h4⟩ := ih2.2 (alts [] (joinCat ts :: as) s) n1 false r hr
    refine ⟨ts', joinCat ts :: as, n2, ag2, (h1.tail (c := (⟨alts [] (joinCat ts :: as) s, flagsOf f', n1, false⟩, u ++ r)) ⟨?_, by simp⟩).trans ?_, sim_joinAlt h2 h4⟩
    · simp only [step]
      simp only [show ¬ 124 = 40 by omega, if_false, if_true, verticalBar_ok ts as hb]
    · simpa [alts, Steps] using h3
end

theorem parse_ok {t : List Nat} {e : Re} {f : Mode} (h : Alt ⟨false, false, false, false⟩ t e f) : ∃ x, parse t = .ok x ∧ Sim x e := by
  obtain ⟨ts, as, n, ag, h1, h2⟩ := (alt_ok h).2 [] 0 false [] (.inl rfl) (by simp)
  rw [List.append_nil] at h1
  have := steps_loop h1 rfl t.length (Nat.le_refl _)
  refine ⟨_, ?_, h2⟩
  have e : (⟨[], flagsOf ⟨false, false, false, false⟩, 0, false⟩ : P) = .init := rfl
  rw [e] at this
  simp only [parse, this, Except.bind, close_ok ts as (.inl rfl)]

end Gofer.Regexp
