import Verif.Model.StrTime
/-!
# Lemmas on `StrToTimeFormat`
-/
namespace Gofer.StrTime
open Gofer.Spec.Time

/-! ## Calendar -/

theorem isLeap_eq (y : Nat) : isLeap y = leap y := rfl

theorem leap_iff (y : Nat) : leap y = true ↔ y % 4 = 0 ∧ (y % 100 ≠ 0 ∨ y % 400 = 0) := by
  simp [leap]

theorem daysBeforeYear_eq (y : Nat) : daysBeforeYear y + (y + 99) / 100 = 365 * y + (y + 3) / 4 + (y + 399) / 400 := by
  induction y with
  | zero => rfl
  | succ y ih =>
    unfold daysBeforeYear
    by_cases h : leap y = true
    · rw [if_pos h]; rw [leap_iff] at h; omega
    · rw [if_neg h]; rw [leap_iff] at h; omega

theorem daysSinceEpoch_eq (y : Nat) : daysSinceEpoch y = daysBeforeYear y + 106751990353566 := by
  have h := daysBeforeYear_eq y
  unfold daysSinceEpoch
  dsimp only
  omega

theorem monthLen_eq (m y : Nat) (h1 : 1 ≤ m) (h2 : m ≤ 12) : daysIn m y = monthLen y m := by
  have : m = 1 ∨ m = 2 ∨ m = 3 ∨ m = 4 ∨ m = 5 ∨ m = 6 ∨ m = 7 ∨ m = 8 ∨ m = 9 ∨ m = 10 ∨ m = 11 ∨ m = 12 := by omega
  rcases this with h | h | h | h | h | h | h | h | h | h | h | h <;> subst h <;> simp [daysIn, monthLen, daysBefore, isLeap_eq]

theorem daysOfMonths_eq (m y : Nat) (h1 : 1 ≤ m) (h2 : m ≤ 12) :
    daysOfMonths y (m - 1) = daysBefore.getD (m - 1) 0 + (if leap y && 3 ≤ m then 1 else 0) := by
  have : m = 1 ∨ m = 2 ∨ m = 3 ∨ m = 4 ∨ m = 5 ∨ m = 6 ∨ m = 7 ∨ m = 8 ∨ m = 9 ∨ m = 10 ∨ m = 11 ∨ m = 12 := by omega
  rcases this with h | h | h | h | h | h | h | h | h | h | h | h <;> subst h <;>
    cases hl : leap y <;> simp [daysOfMonths, monthLen, daysBefore, hl]

theorem asUTC_eq (f : Fields) (h1 : 1 ≤ f.month) (h2 : f.month ≤ 12) : asUTC f = clock f := by
  unfold asUTC clock dayNumber
  rw [daysOfMonths_eq _ _ h1 h2, daysSinceEpoch_eq, isLeap_eq]
  dsimp only
  have : absToUnix = -(106751990353566 + 719528) * 86400 := by decide +kernel
  rw [this]
  split <;> omega

/-! ## Text -/

theorem isDigit_iff (b : UInt8) : isDigit b = true ↔ 48 ≤ b.toNat ∧ b.toNat ≤ 57 := by
  simp [isDigit, UInt8.le_iff_toNat_le]

theorem chr_toNat (n : Nat) (h : n < 10) : (chr n).toNat = 48 + n := by
  simp [chr]; omega

theorem isDigit_chr (n : Nat) (h : n < 10) : isDigit (chr n) = true := by
  rw [isDigit_iff, chr_toNat n h]; omega

theorem dig_chr (n : Nat) (h : n < 10) : dig (chr n) = n := by
  rw [dig, chr_toNat n h]; omega

theorem chr_dig (b : UInt8) (h : isDigit b = true) : chr (dig b) = b := by
  rw [isDigit_iff] at h
  apply UInt8.toNat_inj.mp
  rw [chr_toNat _ (by unfold dig; omega)]; unfold dig; omega

theorem dig_lt (b : UInt8) (h : isDigit b = true) : dig b < 10 := by
  rw [isDigit_iff] at h; unfold dig; omega

theorem two_dig (a b : UInt8) (ha : isDigit a = true) (hb : isDigit b = true) : two (dig a * 10 + dig b) = [a, b] := by
  have h1 := dig_lt a ha
  have h2 := dig_lt b hb
  unfold two
  rw [show (dig a * 10 + dig b) / 10 = dig a by omega, show (dig a * 10 + dig b) % 10 = dig b by omega, chr_dig a ha, chr_dig b hb]

theorem skipChar_iff (c : UInt8) (s r : Str) : skipChar c s = some r ↔ s = c :: r := by
  cases s with
  | nil => simp [skipChar]
  | cons a t =>
    simp only [skipChar]
    split
    · rename_i h; subst h; simp
    · rename_i h; simp [h]

theorem getnum_true_iff (s r : Str) (n : Nat) : getnum true s = some (n, r) ↔ n < 100 ∧ s = two n ++ r := by
  constructor
  · intro h
    cases s with
    | nil => simp [getnum] at h
    | cons a t =>
      cases t with
      | nil => simp [getnum] at h
      | cons b t =>
        simp only [getnum] at h
        cases ha : isDigit a with
        | false => simp [ha] at h
        | true =>
          cases hb : isDigit b with
          | false => simp [ha, hb] at h
          | true =>
            simp [ha, hb] at h
            obtain ⟨rfl, rfl⟩ := h
            have h1 := dig_lt a ha
            have h2 := dig_lt b hb
            rw [two_dig a b ha hb]
            exact ⟨by omega, rfl⟩
  · rintro ⟨h, rfl⟩
    have h1 : n / 10 < 10 := by omega
    have h2 : n % 10 < 10 := by omega
    simp [two, getnum, isDigit_chr, dig_chr, h1, h2]
    omega

theorem getnum_false_iff (s r : Str) (n : Nat) (c : UInt8) (hc : isDigit c = false) :
    getnum false s = some (n, c :: r) ↔ (n < 100 ∧ s = two n ++ c :: r) ∨ (n < 10 ∧ s = chr n :: c :: r) := by
  constructor
  · intro h
    cases s with
    | nil => simp [getnum] at h
    | cons a t =>
      cases ha : isDigit a with
      | false => simp [getnum, ha] at h
      | true =>
        have h1 := dig_lt a ha
        cases t with
        | nil => simp [getnum, ha] at h
        | cons b t =>
          simp only [getnum] at h
          cases hb : isDigit b with
          | false =>
            simp [ha, hb] at h
            obtain ⟨rfl, rfl, rfl⟩ := h
            right
            rw [chr_dig a ha]
            exact ⟨h1, rfl⟩
          | true =>
            simp [ha, hb] at h
            obtain ⟨rfl, rfl⟩ := h
            have h2 := dig_lt b hb
            left
            rw [two_dig a b ha hb]
            exact ⟨by omega, rfl⟩
  · rintro (⟨h, rfl⟩ | ⟨h, rfl⟩)
    · have h1 : n / 10 < 10 := by omega
      have h2 : n % 10 < 10 := by omega
      simp [two, getnum, isDigit_chr, dig_chr, h1, h2]
      omega
    · simp [getnum, isDigit_chr, dig_chr, h, hc]

theorem getYear_iff (s r : Str) (y : Nat) :
    getYear s = some (y, r) ↔ y < 10000 ∧ s = two (y / 100) ++ two (y % 100) ++ r := by
  constructor
  · intro h
    match s with
    | [] => simp [getYear] at h
    | [_] => simp [getYear] at h
    | [_, _] => simp [getYear] at h
    | [_, _, _] => simp [getYear] at h
    | a :: b :: c :: d :: t =>
      simp only [getYear] at h
      split at h
      · rename_i hd
        simp only [Bool.and_eq_true] at hd
        obtain ⟨⟨⟨ha, hb⟩, hc⟩, hd⟩ := hd
        simp at h
        obtain ⟨rfl, rfl⟩ := h
        have h1 := dig_lt a ha
        have h2 := dig_lt b hb
        have h3 := dig_lt c hc
        have h4 := dig_lt d hd
        refine ⟨by omega, ?_⟩
        rw [show (((dig a * 10 + dig b) * 10 + dig c) * 10 + dig d) / 100 = dig a * 10 + dig b by omega,
          show (((dig a * 10 + dig b) * 10 + dig c) * 10 + dig d) % 100 = dig c * 10 + dig d by omega, two_dig a b ha hb, two_dig c d hc hd]
        rfl
      · simp at h
  · rintro ⟨h, rfl⟩
    have h1 : y / 100 / 10 < 10 := by omega
    have h2 : y / 100 % 10 < 10 := by omega
    have h3 : y % 100 / 10 < 10 := by omega
    have h4 : y % 100 % 10 < 10 := by omega
    simp only [two, List.cons_append, List.nil_append, getYear, isDigit_chr _ h1, isDigit_chr _ h2, isDigit_chr _ h3, isDigit_chr _ h4,
      dig_chr _ h1, dig_chr _ h2, dig_chr _ h3, dig_chr _ h4, Bool.and_self, if_true]
    rw [show ((y / 100 / 10 * 10 + y / 100 % 10) * 10 + y % 100 / 10) * 10 + y % 100 % 10 = y by omega]

theorem cutspace_spec (s : Str) : ∃ k, s = List.replicate k 32 ++ cutspace s := by
  induction s with
  | nil => exact ⟨0, rfl⟩
  | cons a r ih =>
    by_cases h : a = 32
    · obtain ⟨k, hk⟩ := ih
      refine ⟨k + 1, ?_⟩
      subst h
      simp only [cutspace, if_true, List.replicate_succ, List.cons_append]
      rw [← hk]
    · exact ⟨0, by simp [cutspace, h]⟩

theorem cutspace_replicate (k : Nat) (c : UInt8) (r : Str) (hc : c ≠ 32) : cutspace (List.replicate k 32 ++ c :: r) = c :: r := by
  induction k with
  | zero => simp [cutspace, hc]
  | succ k ih => simp [List.replicate_succ, cutspace, ih]

theorem skipSpace_iff (s r : Str) (c : UInt8) (hc : c ≠ 32) :
    skipSpace s = some (c :: r) ↔ ∃ k, s = List.replicate (k + 1) 32 ++ c :: r := by
  constructor
  · intro h
    cases s with
    | nil => simp [skipSpace] at h
    | cons a t =>
      simp only [skipSpace] at h
      split at h
      · rename_i ha
        simp at h
        obtain ⟨k, hk⟩ := cutspace_spec t
        exact ⟨k, by rw [List.replicate_succ, List.cons_append, ← h, ← hk, ha]⟩
      · simp at h
  · rintro ⟨k, rfl⟩
    simp [List.replicate_succ, skipSpace, cutspace_replicate k c r hc]

theorem digits_map (ds : List Nat) (h : ∀ d ∈ ds, d < 10) : digits (ds.map chr) = (ds, []) := by
  induction ds with
  | nil => rfl
  | cons d ds ih =>
    have h1 := h d (by simp)
    simp only [List.map_cons, digits, isDigit_chr d h1, if_true, dig_chr d h1]
    rw [ih (fun e he => h e (by simp [he]))]

theorem digits_spec (s : Str) : s = (digits s).1.map chr ++ (digits s).2 ∧ ∀ d ∈ (digits s).1, d < 10 := by
  induction s with
  | nil => simp [digits]
  | cons a r ih =>
    cases ha : isDigit a with
    | false => simp [digits, ha]
    | true =>
      simp only [digits, ha, if_true, List.map_cons, List.cons_append, chr_dig a ha]
      refine ⟨by rw [← ih.1], ?_⟩
      intro d hd
      rcases List.mem_cons.mp hd with h | h
      · rw [h]; exact dig_lt a ha
      · exact ih.2 d h

theorem foldl_zeros (k a : Nat) : (List.replicate k 0).foldl (fun a d => a * 10 + d) a = a * 10 ^ k := by
  induction k generalizing a with
  | zero => simp
  | succ k ih => rw [List.replicate_succ, List.foldl_cons, ih, Nat.pow_succ]; simp [Nat.mul_assoc, Nat.mul_comm]

theorem nanoseconds_eq (ds : List Nat) : nanoseconds ds = nanos ds := by
  unfold nanoseconds nanos number
  rw [List.take_append, List.foldl_append, List.take_replicate, foldl_zeros]
  dsimp only
  congr 2
  simp only [List.length_take]
  omega

theorem foldl_lt (ds : List Nat) (h : ∀ d ∈ ds, d < 10) (a : Nat) :
    ds.foldl (fun a d => a * 10 + d) a < (a + 1) * 10 ^ ds.length := by
  induction ds generalizing a with
  | nil => simp
  | cons d ds ih =>
    rw [List.foldl_cons, List.length_cons, Nat.pow_succ]
    have h1 := ih (fun e he => h e (by simp [he])) (a * 10 + d)
    have h2 := h d (by simp)
    refine Nat.lt_of_lt_of_le h1 ?_
    rw [Nat.mul_comm (10 ^ ds.length) 10, ← Nat.mul_assoc]
    exact Nat.mul_le_mul_right _ (by omega)

theorem nanos_lt (ds : List Nat) (h : ∀ d ∈ ds, d < 10) : nanos ds < 1000000000 := by
  unfold nanos number
  have h1 := foldl_lt ((ds ++ List.replicate 9 0).take 9) (by
    intro d hd
    have := List.mem_of_mem_take hd
    rcases List.mem_append.mp this with h' | h'
    · exact h d h'
    · rw [(List.mem_replicate.mp h').2]; decide) 0
  have h2 : ((ds ++ List.replicate 9 0).take 9).length = 9 := by simp
  rw [h2] at h1
  omega

theorem getFrac_iff (s : Str) (n : Nat) :
    getFrac s = (n, []) ↔ (s = [] ∧ n = 0) ∨
      ∃ (sep : UInt8) (ds : List Nat), (sep = 46 ∨ sep = 44) ∧ ds ≠ [] ∧ (∀ d ∈ ds, d < 10) ∧ s = sep :: ds.map chr ∧ n = nanos ds := by
  constructor
  · intro h
    cases s with
    | nil => simp [getFrac] at h; exact .inl ⟨rfl, h.symm⟩
    | cons a r =>
      simp only [getFrac] at h
      split at h
      · rename_i hc
        right
        have hs := digits_spec r
        simp only [Prod.mk.injEq] at h
        refine ⟨a, (digits r).1, hc.1, hc.2, hs.2, ?_, ?_⟩
        · have := hs.1
          rw [h.2, List.append_nil] at this
          rw [← this]
        · rw [← nanoseconds_eq]; exact h.1.symm
      · simp at h
  · rintro (⟨rfl, rfl⟩ | ⟨sep, ds, h1, h2, h3, rfl, rfl⟩)
    · rfl
    · simp only [getFrac, digits_map ds h3]
      rw [if_pos ⟨h1, h2⟩, nanoseconds_eq]

theorem guard_iff (c : Bool) (u : Unit) : guard c = some u ↔ c = true := by
  cases c <;> simp [guard]

theorem parse_of_written {s : Str} {f : Fields} (h : Written s f) : parse s = some f := by
  obtain ⟨⟨v1, v2, v3, v4, v5, v6, v7, v8, v9⟩, k, hh, frac, rfl, hhh, hf⟩ := h
  have hd : f.day < 100 := by
    have : monthLen f.year f.month ≤ 31 := by unfold monthLen; split <;> (try split) <;> omega
    omega
  have e1 : getYear (two (f.year / 100) ++ two (f.year % 100) ++ [45] ++ two f.month ++ [45] ++ two f.day ++ List.replicate (k + 1) 32 ++
      hh ++ [58] ++ two f.min ++ [58] ++ two f.sec ++ frac) = some (f.year, 45 :: (two f.month ++ (45 :: (two f.day ++ (List.replicate (k + 1) 32 ++
      (hh ++ (58 :: (two f.min ++ (58 :: (two f.sec ++ frac)))))))))) := (getYear_iff _ _ _).mpr ⟨v1, by simp⟩
  have e2 : ∀ r, skipChar 45 (45 :: r) = some r := fun r => (skipChar_iff _ _ _).mpr rfl
  have e2' : ∀ r, skipChar 58 (58 :: r) = some r := fun r => (skipChar_iff _ _ _).mpr rfl
  have e3 : ∀ n r, n < 100 → getnum true (two n ++ r) = some (n, r) := fun n r hn => (getnum_true_iff _ _ _).mpr ⟨hn, rfl⟩
  have e4 : ∀ r, getnum false (hh ++ 58 :: r) = some (f.hour, 58 :: r) := by
    intro r
    rw [getnum_false_iff _ _ _ _ (by decide)]
    rcases hhh with h | ⟨h1, h2⟩
    · exact .inl ⟨by omega, by rw [h]⟩
    · exact .inr ⟨h1, by rw [h2]; rfl⟩
  have e5 : ∀ r, skipSpace (List.replicate (k + 1) 32 ++ (hh ++ r)) = some (hh ++ r) := by
    intro r
    have : ∃ c t, hh = c :: t ∧ c ≠ 32 := by
      have hc : ∀ n, n < 10 → chr n ≠ 32 := by
        intro n hn h
        have := chr_toNat n hn
        rw [h] at this
        have h' : (32 : UInt8).toNat = 32 := rfl
        omega
      rcases hhh with h | ⟨h1, h2⟩
      · exact ⟨_, _, h, hc _ (by omega)⟩
      · exact ⟨_, _, h2, hc _ h1⟩
    obtain ⟨c, t, rfl, hc⟩ := this
    exact (skipSpace_iff _ _ _ hc).mpr ⟨k, rfl⟩
  have e6 : getFrac frac = (f.nsec, []) := (getFrac_iff _ _).mpr hf
  unfold parse
  have g : ∀ c : Bool, c = true → guard c = some () := fun c hc => by rw [hc]; rfl
  simp only [e1, e2, Option.bind_eq_bind, Option.bind_some, e3 f.month _ (by omega), e3 f.day _ hd, e5, e4, e2', e3 f.min _ (by omega),
    e3 f.sec _ (by omega), e6]
  rw [g _ (by simp; omega), Option.bind_some, g _ (by simp; omega), Option.bind_some, g _ (by simp; omega), Option.bind_some,
    g _ (by simp; omega), Option.bind_some, g _ (by simp), Option.bind_some, g _ (by simp [monthLen_eq _ _ v2 v3]; omega), Option.bind_some]
  rfl

theorem written_of_parse {s : Str} {f : Fields} (h : parse s = some f) : Written s f := by
  unfold parse at h
  simp only [Option.bind_eq_bind, Option.bind_eq_some_iff, Prod.exists] at h
  obtain ⟨y, s1, h1, s2, h2, m, s3, h3, _, g1, s4, h4, d, s5, h5, s6, h6, hr, s7, h7, _, g2, s8, h8, mi, s9, h9, _, g3, s10, h10,
    sc, s11, h11, _, g4, _, g5, _, g6, hf⟩ := h
  rw [guard_iff] at g1 g2 g3 g4 g5 g6
  rw [getYear_iff] at h1
  rw [skipChar_iff] at h2 h4 h8 h10
  rw [getnum_true_iff] at h3 h5 h9 h11
  subst h8
  rw [getnum_false_iff _ _ _ _ (by decide)] at h7
  have h6' : ∃ k, s5 = List.replicate (k + 1) 32 ++ s6 := by
    rcases h7 with ⟨_, h7⟩ | ⟨hl, h7⟩ <;> subst h7 <;> refine (skipSpace_iff _ _ _ ?_).mp h6
    · intro h
      have := chr_toNat (hr / 10) (by omega)
      rw [h] at this
      have h' : (32 : UInt8).toNat = 32 := rfl
      omega
    · intro h
      have := chr_toNat hr hl
      rw [h] at this
      have h' : (32 : UInt8).toNat = 32 := rfl
      omega
  obtain ⟨k, h6'⟩ := h6'
  simp only [Bool.and_eq_true, decide_eq_true_eq, List.isEmpty_iff] at g1 g2 g3 g4 g5 g6
  rw [monthLen_eq _ _ g1.1 g1.2] at g6
  have hF : getFrac s11 = ((getFrac s11).1, []) := by rw [← g5]
  have hF' := (getFrac_iff _ _).mp hF
  have hn : (getFrac s11).1 < 1000000000 := by
    rcases hF' with ⟨_, h⟩ | ⟨_, ds, _, _, h, _, h'⟩
    · omega
    · rw [h']; exact nanos_lt ds h
  have hf' : f = ⟨y, m, d, hr, mi, sc, (getFrac s11).1⟩ := by
    simpa [pure] using hf.symm
  subst hf'
  refine ⟨⟨h1.1, g1.1, g1.2, g6.1, g6.2, g2, g3, g4, hn⟩, k, ?_⟩
  have hs : ∀ hh, s6 = hh ++ 58 :: s8 → s = two (y / 100) ++ two (y % 100) ++ [45] ++ two m ++ [45] ++ two d ++ List.replicate (k + 1) 32 ++
      hh ++ [58] ++ two mi ++ [58] ++ two sc ++ s11 := by
    intro hh hs6
    rw [h1.2, h2, h3.2, h4, h5.2, h6', hs6, h9.2, h10, h11.2]
    simp
  rcases h7 with ⟨_, h7⟩ | ⟨hl, h7⟩
  · exact ⟨two hr, s11, hs _ h7, .inl rfl, hF'⟩
  · exact ⟨[chr hr], s11, hs _ h7, .inr ⟨hl, rfl⟩, hF'⟩

theorem parse_iff (s : Str) (f : Fields) : parse s = some f ↔ Written s f := ⟨written_of_parse, parse_of_written⟩

/-! ## Zones -/

/-- Offset after the changes `tx`, `o` before them. -/
def off (o : Int) (tx : List (Int × Int)) (t : Int) : Int := tx.foldl (fun o c => if c.1 ≤ t then c.2 else o) o

/-- Pairs of successive offsets. -/
def pairs (o : Int) : List (Int × Int) → List (Int × Int)
  | [] => []
  | (_, o') :: tx => (o, o') :: pairs o' tx

theorem off_before (o : Int) (tx : List (Int × Int)) (t : Int) (h : ∀ c ∈ tx, t < c.1) : off o tx t = o := by
  induction tx with
  | nil => rfl
  | cons c tx ih =>
    have h1 := h c (by simp)
    unfold off
    rw [List.foldl_cons, if_neg (by omega)]
    exact ih (fun d hd => h d (by simp [hd]))

theorem off_cons_ge (o w o' : Int) (tx : List (Int × Int)) (t : Int) (h : w ≤ t) : off o ((w, o') :: tx) t = off o' tx t := by
  unfold off
  rw [List.foldl_cons, if_pos h]

/-- Changes that follow each other at least `M` seconds apart. -/
def Apart (M : Int) (tx : List (Int × Int)) : Prop := tx.Pairwise (fun a b => a.1 + M ≤ b.1)

instance (M : Int) (tx : List (Int × Int)) : Decidable (Apart M tx) := inferInstanceAs (Decidable (List.Pairwise _ _))

theorem off_cons_lt {M : Int} (hM : 0 < M) (o w o' : Int) (tx : List (Int × Int)) (ha : Apart M ((w, o') :: tx)) (t : Int) (h : t < w) :
    off o ((w, o') :: tx) t = o := by
  apply off_before
  intro c hc
  rcases List.mem_cons.mp hc with h1 | h1
  · rw [h1]; exact h
  · have := (List.pairwise_cons.mp ha).1 c h1
    dsimp only at this
    omega

/-- What `lookup` finds: the first period, or the one that begins with a change. -/
theorem lookup_spec {M : Int} (hM : 0 < M) (tx : List (Int × Int)) (ha : Apart M tx) (o : Int) (b : Option Int) (t : Int) :
    (∃ e, lookup o b tx t = (o, b, e) ∧ (∀ e', e = some e' → t < e') ∧ ∀ u, (∀ e', e = some e' → u < e') → off o tx u = o) ∨
    (∃ s o1 e, (s, o1) ∈ tx ∧ lookup o b tx t = (o1, some s, e) ∧ s ≤ t ∧ (∀ e', e = some e' → t < e') ∧
      ∀ u, s ≤ u → (∀ e', e = some e' → u < e') → off o tx u = o1) := by
  induction tx generalizing o b with
  | nil => exact .inl ⟨none, rfl, by simp, fun _ _ => rfl⟩
  | cons c tx ih =>
    obtain ⟨w, o'⟩ := c
    by_cases h : t < w
    · left
      refine ⟨some w, by simp [lookup, h], by intro e he; cases he; exact h, ?_⟩
      intro u he
      exact off_cons_lt hM o w o' tx ha u (he w rfl)
    · right
      have hl : lookup o b ((w, o') :: tx) t = lookup o' (some w) tx t := by simp [lookup, h]
      have hp := List.pairwise_cons.mp ha
      rw [hl]
      rcases ih hp.2 o' (some w) with ⟨e, h1, h2, h3⟩ | ⟨s, o1, e, h0, h1, h2, h3, h4⟩
      · exact ⟨w, o', e, by simp, h1, by omega, h2, fun u hu he => by rw [off_cons_ge _ _ _ _ _ hu]; exact h3 u he⟩
      · have := hp.1 _ h0
        dsimp only at this
        exact ⟨s, o1, e, List.mem_cons_of_mem _ h0, h1, h2, h3, fun u hu he => by
          rw [off_cons_ge _ _ _ _ _ (by omega)]; exact h4 u hu he⟩

/-- Before a change the offset was another for at least `M` seconds. -/
theorem off_pred {M : Int} (hM : 0 < M) (tx : List (Int × Int)) (ha : Apart M tx) (o s o1 : Int) (hs : (s, o1) ∈ tx) :
    ∃ o2, (o2, o1) ∈ pairs o tx ∧ ∀ u, s - M ≤ u → u < s → off o tx u = o2 := by
  induction tx generalizing o with
  | nil => cases hs
  | cons c tx ih =>
    obtain ⟨w, o'⟩ := c
    rcases List.mem_cons.mp hs with h | h
    · cases h
      exact ⟨o, by simp [pairs], fun u _ hu => off_cons_lt hM o s o1 tx ha u hu⟩
    · have hp := List.pairwise_cons.mp ha
      obtain ⟨o2, h1, h2⟩ := ih hp.2 o' h
      have := hp.1 _ h
      dsimp only at this
      exact ⟨o2, by simp [pairs, h1], fun u hu hu' => by rw [off_cons_ge _ _ _ _ _ (by omega)]; exact h2 u hu hu'⟩

theorem offsetAt_eq (z : Zone) (t : Int) : offsetAt z t = off z.first z.changes t := rfl

theorem off_mem (o : Int) (tx : List (Int × Int)) (t : Int) : off o tx t = o ∨ ∃ c ∈ tx, off o tx t = c.2 := by
  induction tx generalizing o with
  | nil => exact .inl rfl
  | cons c tx ih =>
    by_cases h : c.1 ≤ t
    · have e : off o (c :: tx) t = off c.2 tx t := off_cons_ge o c.1 c.2 tx t h
      rw [e]
      rcases ih c.2 with h1 | ⟨d, h1, h2⟩
      · exact .inr ⟨c, by simp, h1⟩
      · exact .inr ⟨d, by simp [h1], h2⟩
    · have e : off o (c :: tx) t = off o tx t := by unfold off; rw [List.foldl_cons, if_neg h]
      rw [e]
      rcases ih o with h1 | ⟨d, h1, h2⟩
      · exact .inl h1
      · exact .inr ⟨d, by simp [h1], h2⟩

/-- Zones east of Greenwich whose changes are further apart than their greatest offset. -/
def East (M : Int) (z : Zone) : Prop :=
  0 < M ∧ Apart M z.changes ∧ (0 < z.first ∧ z.first ≤ M) ∧ ∀ c ∈ z.changes, 0 < c.2 ∧ c.2 ≤ M

theorem East.off {M : Int} {z : Zone} (h : East M z) (t : Int) : 0 < offsetAt z t ∧ offsetAt z t ≤ M := by
  rw [offsetAt_eq]
  rcases off_mem z.first z.changes t with h1 | ⟨c, hc, h1⟩
  · rw [h1]; exact h.2.2.1
  · rw [h1]; exact h.2.2.2 c hc

/-- What `toMoment` does in such a zone: it takes the offset found in the table, or the one before. -/
theorem toMoment_cases {M : Int} {z : Zone} (h : East M z) (c : Int) :
    Shows z (toMoment z c) c ∨
    ∃ s o1 o2, (s, o1) ∈ z.changes ∧ (o2, o1) ∈ pairs z.first z.changes ∧ s ≤ c ∧ c - o1 < s ∧ toMoment z c = c - o2 ∧
      (∀ u, s ≤ u → u ≤ c → offsetAt z u = o1) ∧ (∀ u, s - M ≤ u → u < s → offsetAt z u = o2) := by
  obtain ⟨hM, ha, hf, ho⟩ := h
  unfold toMoment
  rcases lookup_spec hM z.changes ha z.first none c with ⟨e, h1, h2, h3⟩ | ⟨s, o1, e, h0, h1, h2, h3, h4⟩
  · left
    have hu : ∀ e', e = some e' → c - z.first < e' := fun e' he => by have := h2 e' he; omega
    have hany : e.any (fun e => decide (e ≤ c - z.first)) = false := by
      cases he : e with
      | none => rfl
      | some e' => have := hu e' he; simp; omega
    simp only [h1]
    rw [if_neg (by omega)]
    simp only [Option.any_none, Bool.false_or, hany]
    unfold Shows
    rw [offsetAt_eq, if_neg (by simp), h3 _ hu]
    omega
  · have ho1 := ho _ h0
    dsimp only at ho1
    have hu : ∀ e', e = some e' → c - o1 < e' := fun e' he => by have := h3 e' he; omega
    have hany : e.any (fun e => decide (e ≤ c - o1)) = false := by
      cases he : e with
      | none => rfl
      | some e' => have := hu e' he; simp; omega
    simp only [h1]
    rw [if_neg (by omega)]
    simp only [Option.any_some, hany, Bool.or_false, decide_eq_true_eq]
    by_cases hc : c - o1 < s
    · right
      rw [if_pos hc]
      obtain ⟨o2, hp, hb⟩ := off_pred hM z.changes ha z.first s o1 h0
      refine ⟨s, o1, o2, h0, hp, h2, hc, ?_, ?_, hb⟩
      · have e1 : off z.first z.changes (c - o1) = o2 := hb _ (by omega) hc
        have e2 : (lookup z.first none z.changes (c - o1)).1 = off z.first z.changes (c - o1) := by
          rcases lookup_spec hM z.changes ha z.first none (c - o1) with ⟨e, h1, h2, h3⟩ | ⟨s, o1, e, h0, h1, h2, h3, h4⟩
          · rw [h1, h3 _ h2]
          · rw [h1, h4 _ h2 h3]
        rw [e2, e1]
      · intro u hu1 hu2
        exact h4 u hu1 (fun e' he => by have := h3 e' he; omega)
    · left
      rw [if_neg hc]
      unfold Shows
      rw [offsetAt_eq, h4 _ (by omega) hu]
      omega

theorem toMoment_shows {M : Int} {z : Zone} (h : East M z) (c t : Int) (ht : Shows z t c) : Shows z (toMoment z c) c := by
  rcases toMoment_cases h c with h1 | ⟨s, o1, o2, _, _, h2, h3, h4, h5, h6⟩
  · exact h1
  · have hoff := h.off t
    unfold Shows at ht ⊢
    by_cases hts : s ≤ t
    · have := h5 t hts (by omega)
      omega
    · have e := h6 t (by omega) (by omega)
      rw [h4, show c - o2 = t by omega]
      omega

theorem toMoment_gap {M : Int} {z : Zone} (h : East M z) (c : Int) (ht : ∀ t, ¬ Shows z t c) :
    ∃ o1 o2, (o2, o1) ∈ pairs z.first z.changes ∧ o2 < o1 ∧ Shows z (toMoment z c) (c + (o1 - o2)) := by
  rcases toMoment_cases h c with h1 | ⟨s, o1, o2, h0, hp, h2, h3, h4, h5, h6⟩
  · exact absurd h1 (ht _)
  · have hpos : 0 < o2 ∧ o2 ≤ M := by
      have := h6 (s - 1) (by have := h.1; omega) (by omega)
      rw [← this]; exact h.off _
    have hs : s ≤ c - o2 := by
      apply Decidable.byContradiction
      intro hlt
      apply ht (c - o2)
      unfold Shows
      rw [h6 _ (by omega) (by omega)]
      omega
    refine ⟨o1, o2, hp, by omega, ?_⟩
    unfold Shows
    rw [h4, h5 _ hs (by omega)]
    omega

theorem east_shanghai : East 32400 shanghai := by
  refine ⟨by decide, by decide +kernel, by decide, by decide +kernel⟩

theorem pairs_shanghai : ∀ p ∈ pairs shanghai.first shanghai.changes, p.1 < p.2 → p.2 - p.1 = 3600 := by decide +kernel

theorem lookup_last (tx : List (Int × Int)) (w o' t : Int) (h : ∀ c ∈ tx, c.1 ≤ t) (hw : w ≤ t) (o : Int) (b : Option Int) :
    lookup o b (tx ++ [(w, o')]) t = (o', some w, none) := by
  induction tx generalizing o b with
  | nil => simp [lookup]; omega
  | cons c tx ih =>
    obtain ⟨v, o''⟩ := c
    have := h (v, o'') (by simp)
    dsimp only at this
    simp only [List.cons_append, lookup]
    rw [if_neg (by omega)]
    exact ih (fun d hd => h d (by simp [hd])) _ _

theorem shanghai_late (c : Int) (h : 684896400 ≤ c) : toMoment shanghai c = c - 28800 := by
  have e : shanghai.changes = shanghai.changes.dropLast ++ [(684867600, 28800)] := by decide +kernel
  have e2 : ∀ d ∈ shanghai.changes.dropLast, d.1 ≤ 684867600 := by decide +kernel
  have e3 := lookup_last shanghai.changes.dropLast 684867600 28800 c (fun d hd => by have := e2 d hd; omega) (by omega) shanghai.first none
  rw [← e] at e3
  unfold toMoment
  simp only [e3]
  rw [if_neg (by decide), if_neg (by simp; omega)]

/-! ## Order -/

theorem lex_two (a b : Nat) (ha : a < 100) (hb : b < 100) (r r' : List UInt8) :
    lexLt (two a ++ r) (two b ++ r') = true ↔ a < b ∨ (a = b ∧ lexLt r r' = true) := by
  have h1 := chr_toNat (a / 10) (by omega)
  have h2 := chr_toNat (a % 10) (by omega)
  have h3 := chr_toNat (b / 10) (by omega)
  have h4 := chr_toNat (b % 10) (by omega)
  simp only [two, List.cons_append, List.nil_append, lexLt, Bool.or_eq_true, Bool.and_eq_true, decide_eq_true_eq, beq_iff_eq,
    UInt8.lt_iff_toNat_lt, ← UInt8.toNat_inj, h1, h2, h3, h4]
  constructor
  · rintro (h | ⟨h, h' | ⟨h', h''⟩⟩)
    · left; omega
    · left; omega
    · right; exact ⟨by omega, h''⟩
  · rintro (h | ⟨h, h'⟩)
    · by_cases hh : a / 10 < b / 10
      · left; omega
      · right; exact ⟨by omega, .inl (by omega)⟩
    · subst h; right; exact ⟨rfl, .inr ⟨rfl, h'⟩⟩

theorem lex_char (c : UInt8) (r r' : List UInt8) : lexLt (c :: r) (c :: r') = lexLt r r' := by
  simp [lexLt, UInt8.lt_irrefl]

theorem lexLt_stamp (f g : Fields) (hf : Valid f) (hg : Valid g) :
    lexLt (stamp f) (stamp g) = true ↔
      f.year < g.year ∨ f.year = g.year ∧ (f.month < g.month ∨ f.month = g.month ∧ (f.day < g.day ∨ f.day = g.day ∧
        (f.hour < g.hour ∨ f.hour = g.hour ∧ (f.min < g.min ∨ f.min = g.min ∧ f.sec < g.sec)))) := by
  obtain ⟨f1, f2, f3, f4, f5, f6, f7, f8, _⟩ := hf
  obtain ⟨g1, g2, g3, g4, g5, g6, g7, g8, _⟩ := hg
  have hd : ∀ y m, monthLen y m ≤ 31 := by intro y m; unfold monthLen; split <;> (try split) <;> omega
  have d1 := hd f.year f.month
  have d2 := hd g.year g.month
  have hlast : lexLt (two f.sec) (two g.sec) = true ↔ f.sec < g.sec := by
    have := lex_two f.sec g.sec (by omega) (by omega) [] []
    simpa [lexLt] using this
  simp only [stamp, List.append_assoc, List.cons_append, List.nil_append]
  rw [lex_two _ _ (by omega) (by omega), lex_two _ _ (by omega) (by omega), lex_char, lex_two _ _ (by omega) (by omega), lex_char,
    lex_two _ _ (by omega) (by omega), lex_char, lex_two _ _ (by omega) (by omega), lex_char, lex_two _ _ (by omega) (by omega), lex_char, hlast]
  omega

theorem daysOfMonths_mono (y a b : Nat) (h : a ≤ b) : daysOfMonths y a ≤ daysOfMonths y b := by
  induction b with
  | zero => rw [Nat.le_zero.mp h]; exact Nat.le_refl _
  | succ b ih =>
    by_cases hh : a = b + 1
    · rw [hh]; exact Nat.le_refl _
    · have := ih (by omega)
      show daysOfMonths y a ≤ daysOfMonths y b + monthLen y (b + 1)
      omega

theorem daysOfMonths_12 (y : Nat) : daysOfMonths y 12 = if leap y then 366 else 365 := by
  cases hl : leap y <;> simp [daysOfMonths, monthLen, hl]

theorem daysBeforeYear_mono (a b : Nat) (h : a ≤ b) : daysBeforeYear a ≤ daysBeforeYear b := by
  induction b with
  | zero => rw [Nat.le_zero.mp h]; exact Nat.le_refl _
  | succ b ih =>
    by_cases hh : a = b + 1
    · rw [hh]; exact Nat.le_refl _
    · have := ih (by omega)
      show daysBeforeYear a ≤ daysBeforeYear b + (if leap b then 366 else 365)
      omega

/-- Days of a date from the beginning of year 0. -/
theorem day_lt_of_lt (f g : Fields) (hf : Valid f) (hg : Valid g)
    (h : f.year < g.year ∨ f.year = g.year ∧ (f.month < g.month ∨ f.month = g.month ∧ f.day < g.day)) : dayNumber f < dayNumber g := by
  obtain ⟨f1, f2, f3, f4, f5, f6, f7, f8, _⟩ := hf
  obtain ⟨g1, g2, g3, g4, g5, g6, g7, g8, _⟩ := hg
  have e : daysOfMonths f.year (f.month - 1) + monthLen f.year f.month = daysOfMonths f.year f.month := by
    obtain ⟨k, hk⟩ : ∃ k, f.month = k + 1 := ⟨f.month - 1, by omega⟩
    rw [hk]; rfl
  unfold dayNumber
  rcases h with h | ⟨h, h' | ⟨h', h''⟩⟩
  · have h1 := daysBeforeYear_mono (f.year + 1) g.year h
    have h2 := daysOfMonths_mono f.year f.month 12 f3
    rw [daysOfMonths_12] at h2
    rw [daysBeforeYear] at h1
    omega
  · have h1 := daysOfMonths_mono f.year f.month (g.month - 1) (by omega)
    rw [← h]
    omega
  · rw [← h, ← h']; omega

theorem clock_lt_of_lt (f g : Fields) (hf : Valid f) (hg : Valid g)
    (h : f.year < g.year ∨ f.year = g.year ∧ (f.month < g.month ∨ f.month = g.month ∧ (f.day < g.day ∨ f.day = g.day ∧
        (f.hour < g.hour ∨ f.hour = g.hour ∧ (f.min < g.min ∨ f.min = g.min ∧ f.sec < g.sec))))) : clock f < clock g := by
  have hf' := hf
  have hg' := hg
  obtain ⟨f1, f2, f3, f4, f5, f6, f7, f8, _⟩ := hf
  obtain ⟨g1, g2, g3, g4, g5, g6, g7, g8, _⟩ := hg
  by_cases hd : f.year < g.year ∨ f.year = g.year ∧ (f.month < g.month ∨ f.month = g.month ∧ f.day < g.day)
  · have := day_lt_of_lt f g hf' hg' hd
    unfold clock
    omega
  · have e1 : f.year = g.year := by omega
    have e2 : f.month = g.month := by omega
    have e3 : f.day = g.day := by omega
    have : dayNumber f = dayNumber g := by unfold dayNumber; rw [e1, e2, e3]
    unfold clock
    omega

theorem lexLt_clock (f g : Fields) (hf : Valid f) (hg : Valid g) : lexLt (stamp f) (stamp g) = true ↔ clock f < clock g := by
  constructor
  · intro h
    exact clock_lt_of_lt f g hf hg ((lexLt_stamp f g hf hg).mp h)
  · intro h
    rw [lexLt_stamp f g hf hg]
    apply Decidable.byContradiction
    intro hn
    by_cases he : f.year = g.year ∧ f.month = g.month ∧ f.day = g.day ∧ f.hour = g.hour ∧ f.min = g.min ∧ f.sec = g.sec
    · obtain ⟨e1, e2, e3, e4, e5, e6⟩ := he
      have : clock f = clock g := by unfold clock dayNumber; rw [e1, e2, e3, e4, e5, e6]
      omega
    · have := clock_lt_of_lt g f hg hf (by omega)
      omega

theorem canonical (z : Zone) (f : Fields) (hv : Valid f) (hn : f.nsec = 0) :
    strToTimeFormat (some z) (stamp f) = .ok (toMoment z (clock f)) 0 := by
  have hw : Written (stamp f) f := ⟨hv, 0, two f.hour, [], by simp [stamp], .inl rfl, .inl ⟨rfl, hn⟩⟩
  unfold strToTimeFormat
  rw [parse_of_written hw]
  dsimp only
  rw [asUTC_eq f hv.2.1 hv.2.2.1, hn]

end Gofer.StrTime
