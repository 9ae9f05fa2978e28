import Verif.Model.Json
import Verif.Proof.Post
import Mathlib.Tactic.Ring
import Mathlib.Data.List.Lex
import Mathlib.Data.List.Induction
import Mathlib.Data.UInt
import Mathlib.Tactic.Tauto
/-
Helper lemmas about the model of JSON.
-/
namespace Gofer.Json
open Gofer.Spec.Json
open Gofer.Post (all8)

/-! ## UTF-8 -/

theorem ofNat_eq (n : Nat) (b : UInt8) (h : n = b.toNat) : UInt8.ofNat n = b := by
  subst h; simp

theorem toNat_ofNat (n : Nat) (h : n < 256) : (UInt8.ofNat n).toNat = n := by
  simp; omega

theorem cont_iff (b : UInt8) : cont b = true ↔ 128 ≤ b.toNat ∧ b.toNat ≤ 191 := by
  simp [cont, UInt8.le_iff_toNat_le]

/-- A character of more than one byte is decoded. -/
theorem decodeRune_utf8 (c : Nat) (hc : Scalar c) (h : 128 ≤ c) (r : Bytes) :
    decodeRune (utf8 c ++ r) = (c, (utf8 c).length) := by
  unfold Scalar at hc
  unfold utf8
  rw [if_neg (by omega)]
  by_cases h2 : c < 0x800
  · rw [if_pos h2]
    have e0 := toNat_ofNat (0xC0 + c / 64) (by omega)
    have e1 := toNat_ofNat (0x80 + c % 64) (by omega)
    generalize UInt8.ofNat (0xC0 + c / 64) = b0 at e0
    generalize UInt8.ofNat (0x80 + c % 64) = b1 at e1
    simp only [List.cons_append, List.nil_append, decodeRune, UInt8.lt_iff_toNat_lt, UInt8.le_iff_toNat_le]
    rw [if_neg (by rw [e0]; simp; omega), if_neg (by simp [e0]; omega), if_pos (by rw [e0]; simp; omega),
      if_pos ((cont_iff _).2 (by omega))]
    simp
    omega
  · rw [if_neg h2]
    by_cases h3 : c < 0x10000
    · rw [if_pos h3]
      have e0 := toNat_ofNat (0xE0 + c / 4096) (by omega)
      have e1 := toNat_ofNat (0x80 + c / 64 % 64) (by omega)
      have e2 := toNat_ofNat (0x80 + c % 64) (by omega)
      generalize UInt8.ofNat (0xE0 + c / 4096) = b0 at e0
      generalize UInt8.ofNat (0x80 + c / 64 % 64) = b1 at e1
      generalize UInt8.ofNat (0x80 + c % 64) = b2 at e2
      simp only [List.cons_append, List.nil_append, decodeRune]
      rw [if_neg (by rw [UInt8.lt_iff_toNat_lt, e0]; simp; omega),
        if_neg (by simp [UInt8.lt_iff_toNat_lt, e0]; omega),
        if_neg (by rw [UInt8.le_iff_toNat_le, e0]; simp; omega),
        if_pos (by rw [UInt8.le_iff_toNat_le, e0]; simp; omega), if_pos, if_pos ((cont_iff _).2 (by omega))]
      · simp
        omega
      · simp only [Bool.and_eq_true, decide_eq_true_eq, UInt8.le_iff_toNat_le, e1]
        constructor
        · split
          · rename_i h; rw [h] at e0; simp at e0 ⊢; omega
          · simp
        · split
          · rename_i h; rw [h] at e0; simp at e0 ⊢; omega
          · simp; omega
    · rw [if_neg h3]
      have e0 := toNat_ofNat (0xF0 + c / 262144) (by omega)
      have e1 := toNat_ofNat (0x80 + c / 4096 % 64) (by omega)
      have e2 := toNat_ofNat (0x80 + c / 64 % 64) (by omega)
      have e3 := toNat_ofNat (0x80 + c % 64) (by omega)
      generalize UInt8.ofNat (0xF0 + c / 262144) = b0 at e0
      generalize UInt8.ofNat (0x80 + c / 4096 % 64) = b1 at e1
      generalize UInt8.ofNat (0x80 + c / 64 % 64) = b2 at e2
      generalize UInt8.ofNat (0x80 + c % 64) = b3 at e3
      simp only [List.cons_append, List.nil_append, decodeRune]
      rw [if_neg (by rw [UInt8.lt_iff_toNat_lt, e0]; simp; omega),
        if_neg (by simp [UInt8.lt_iff_toNat_lt, e0]; omega),
        if_neg (by rw [UInt8.le_iff_toNat_le, e0]; simp; omega),
        if_neg (by rw [UInt8.le_iff_toNat_le, e0]; simp; omega), if_pos, if_pos]
      · simp
        omega
      · rw [Bool.and_eq_true, cont_iff, cont_iff]; omega
      · simp only [Bool.and_eq_true, decide_eq_true_eq, UInt8.le_iff_toNat_le, e1]
        constructor
        · split
          · rename_i h; rw [h] at e0; simp at e0 ⊢; omega
          · simp
        · split
          · rename_i h; rw [h] at e0; simp at e0 ⊢; omega
          · simp; omega

/-- A byte above 127 begins a character, which is decoded, or the answer is `(RuneError, 1)`. -/
theorem decodeRune_cases (b : UInt8) (s : Bytes) (hb : ¬ b < 128) :
    decodeRune (b :: s) = (runeError, 1) ∨
      ∃ c r, Scalar c ∧ 128 ≤ c ∧ b :: s = utf8 c ++ r ∧ decodeRune (b :: s) = (c, (utf8 c).length) := by
  suffices h : decodeRune (b :: s) = (runeError, 1) ∨ ∃ c r, Scalar c ∧ 128 ≤ c ∧ b :: s = utf8 c ++ r by
    rcases h with h | ⟨c, r, h1, h2, h3⟩
    · exact Or.inl h
    · exact Or.inr ⟨c, r, h1, h2, h3, by rw [h3]; exact decodeRune_utf8 c h1 h2 r⟩
  simp only [UInt8.lt_iff_toNat_lt] at hb
  have hb' : 128 ≤ b.toNat := by simpa using hb
  have hlt := b.toNat_lt
  simp only [decodeRune]
  rw [if_neg (by rw [UInt8.lt_iff_toNat_lt]; simpa using hb)]
  split
  · exact Or.inl rfl
  rename_i h0
  have h0' : 0xC2 ≤ b.toNat ∧ b.toNat ≤ 0xF4 := by
    simp [UInt8.lt_iff_toNat_lt, UInt8.le_iff_toNat_le] at h0; omega
  match s with
  | [] => exact Or.inl rfl
  | b1 :: r1 =>
    have hlt1 := b1.toNat_lt
    simp only []
    split
    · rename_i h1
      have h1' : b.toNat ≤ 0xDF := by simpa [UInt8.le_iff_toNat_le] using h1
      split
      · rename_i h2
        rw [cont_iff] at h2
        refine Or.inr ⟨b.toNat % 32 * 64 + b1.toNat % 64, r1, ?_, by omega, ?_⟩
        · unfold Scalar; omega
        · unfold utf8
          rw [if_neg (by omega), if_pos (by omega), ofNat_eq _ b (by omega), ofNat_eq _ b1 (by omega)]
          rfl
      · exact Or.inl rfl
    · rename_i h1
      have h1' : 0xDF < b.toNat := by simpa [UInt8.le_iff_toNat_le] using h1
      split
      · rename_i h2
        have h2' : b.toNat ≤ 0xEF := by simpa [UInt8.le_iff_toNat_le] using h2
        generalize hlo : (if b = 0xE0 then (0xA0 : UInt8) else 0x80) = lo
        generalize hhi : (if b = 0xED then (0x9F : UInt8) else 0xBF) = hi
        split
        · rename_i h3
          have h4 : 128 ≤ b1.toNat ∧ b1.toNat ≤ 191 ∧ (b.toNat = 0xE0 → 0xA0 ≤ b1.toNat) ∧
              (b.toNat = 0xED → b1.toNat ≤ 0x9F) := by
            have k1 : b = 0xE0 ↔ b.toNat = 0xE0 := by rw [← UInt8.toNat_inj]; simp
            have k2 : b = 0xED ↔ b.toNat = 0xED := by rw [← UInt8.toNat_inj]; simp
            simp only [Bool.and_eq_true, decide_eq_true_eq] at h3
            simp only [k1] at hlo
            simp only [k2] at hhi
            obtain ⟨p1, p2⟩ := h3
            subst hlo hhi
            split at p1 <;> split at p2 <;> simp [UInt8.le_iff_toNat_le] at p1 p2 <;> omega
          match r1 with
          | [] => exact Or.inl rfl
          | b2 :: r2 =>
            have hlt2 := b2.toNat_lt
            simp only []
            split
            · rename_i h5
              rw [cont_iff] at h5
              refine Or.inr ⟨b.toNat % 16 * 4096 + b1.toNat % 64 * 64 + b2.toNat % 64, r2, ?_, by omega, ?_⟩
              · unfold Scalar; omega
              · unfold utf8
                rw [if_neg (by omega), if_neg (by omega), if_pos (by omega), ofNat_eq _ b (by omega),
                  ofNat_eq _ b1 (by omega), ofNat_eq _ b2 (by omega)]
                rfl
            · exact Or.inl rfl
        · exact Or.inl rfl
      · rename_i h2
        have h2' : 0xEF < b.toNat := by simpa [UInt8.le_iff_toNat_le] using h2
        generalize hlo : (if b = 0xF0 then (0x90 : UInt8) else 0x80) = lo
        generalize hhi : (if b = 0xF4 then (0x8F : UInt8) else 0xBF) = hi
        split
        · rename_i h3
          have h4 : 128 ≤ b1.toNat ∧ b1.toNat ≤ 191 ∧ (b.toNat = 0xF0 → 0x90 ≤ b1.toNat) ∧
              (b.toNat = 0xF4 → b1.toNat ≤ 0x8F) := by
            have k1 : b = 0xF0 ↔ b.toNat = 0xF0 := by rw [← UInt8.toNat_inj]; simp
            have k2 : b = 0xF4 ↔ b.toNat = 0xF4 := by rw [← UInt8.toNat_inj]; simp
            simp only [Bool.and_eq_true, decide_eq_true_eq] at h3
            simp only [k1] at hlo
            simp only [k2] at hhi
            obtain ⟨p1, p2⟩ := h3
            subst hlo hhi
            split at p1 <;> split at p2 <;> simp [UInt8.le_iff_toNat_le] at p1 p2 <;> omega
          match r1 with
          | [] => exact Or.inl rfl
          | [_] => exact Or.inl rfl
          | b2 :: b3 :: r2 =>
            have hlt2 := b2.toNat_lt
            have hlt3 := b3.toNat_lt
            simp only []
            split
            · rename_i h5
              rw [Bool.and_eq_true, cont_iff, cont_iff] at h5
              refine Or.inr ⟨b.toNat % 8 * 262144 + b1.toNat % 64 * 4096 + b2.toNat % 64 * 64 + b3.toNat % 64, r2, ?_,
                by omega, ?_⟩
              · unfold Scalar; omega
              · unfold utf8
                rw [if_neg (by omega), if_neg (by omega), if_neg (by omega), ofNat_eq _ b (by omega),
                  ofNat_eq _ b1 (by omega), ofNat_eq _ b2 (by omega), ofNat_eq _ b3 (by omega)]
                rfl
            · exact Or.inl rfl
        · exact Or.inl rfl

theorem encodeRune_scalar (c : Nat) (h : Scalar c) : encodeRune c = utf8 c := by
  unfold Scalar at h
  unfold encodeRune utf8
  split
  · rfl
  split
  · rfl
  rw [if_neg]
  simp
  omega

/-- The bytes of a character of more than one byte are above 127. -/
theorem utf8_high (c : Nat) (hc : Scalar c) (h : 128 ≤ c) : ∀ b ∈ utf8 c, 128 ≤ b.toNat := by
  unfold Scalar at hc
  intro b hb
  unfold utf8 at hb
  rw [if_neg (by omega)] at hb
  split at hb
  · simp only [List.mem_cons, List.not_mem_nil, or_false] at hb
    rcases hb with rfl | rfl <;> rw [toNat_ofNat _ (by omega)] <;> omega
  split at hb
  · simp only [List.mem_cons, List.not_mem_nil, or_false] at hb
    rcases hb with rfl | rfl | rfl <;> rw [toNat_ofNat _ (by omega)] <;> omega
  · simp only [List.mem_cons, List.not_mem_nil, or_false] at hb
    rcases hb with rfl | rfl | rfl | rfl <;> rw [toNat_ofNat _ (by omega)] <;> omega

theorem utf8_length (c : Nat) (h : 128 ≤ c) : 2 ≤ (utf8 c).length := by
  unfold utf8
  rw [if_neg (by omega)]
  split
  · simp
  split <;> simp

theorem utf8_ascii (b : UInt8) (h : b < 128) : Scalar b.toNat ∧ utf8 b.toNat = [b] := by
  rw [UInt8.lt_iff_toNat_lt] at h
  have h' : b.toNat < 128 := by simpa using h
  refine ⟨Or.inl (by omega), ?_⟩
  unfold utf8
  rw [if_pos (by omega), ofNat_eq _ b rfl]

/-- Below 128 a character is its byte. -/
theorem utf8_small (c : Nat) (h : c < 128) : ∃ b : UInt8, b < 128 ∧ utf8 c = [b] ∧ b.toNat = c := by
  refine ⟨UInt8.ofNat c, ?_, ?_, toNat_ofNat c (by omega)⟩
  · rw [UInt8.lt_iff_toNat_lt, toNat_ofNat c (by omega)]; simpa using h
  · unfold utf8; rw [if_pos (by omega)]

/-! ## Strings -/

/-- The string with every faulty byte replaced: what comes out. -/
def fix : Nat → Bytes → Bytes
  | 0, _ => []
  | _ + 1, [] => []
  | f + 1, b :: s =>
    if b < 128 then b :: fix f s
    else if decodeRune (b :: s) = (runeError, 1) then [0xEF, 0xBF, 0xBD] ++ fix f s
    else (b :: s).take (decodeRune (b :: s)).2 ++ fix f ((b :: s).drop (decodeRune (b :: s)).2)

theorem fixed_fix (f : Nat) (s : Bytes) (h : s.length ≤ f) : Fixed s (fix f s) := by
  induction f generalizing s with
  | zero => match s with
    | [] => exact .nil
    | _ :: _ => simp at h
  | succ f ih => match s with
    | [] => exact .nil
    | b :: s =>
      simp only [List.length_cons] at h
      by_cases hb : b < 128
      · simp only [fix, if_pos hb]
        have := Fixed.good b.toNat s (fix f s) (utf8_ascii b hb).1 (ih s (by omega))
        rwa [(utf8_ascii b hb).2] at this
      · simp only [fix, if_neg hb]
        rcases decodeRune_cases b s hb with e | ⟨c, r, h1, h2, h3, h4⟩
        · rw [if_pos e]
          refine .bad b s (fix f s) ?_ (ih s (by omega))
          intro c hc hp
          obtain ⟨r, hr⟩ := hp
          by_cases hc2 : c < 128
          · obtain ⟨b', hb', hu, _⟩ := utf8_small c hc2
            rw [hu] at hr
            simp at hr
            rw [hr.1] at hb'
            exact hb hb'
          · have := decodeRune_utf8 c hc (by omega) r
            rw [hr, e] at this
            have h2 := utf8_length c (by omega)
            simp only [Prod.mk.injEq] at this
            omega
        · have hl := utf8_length c h2
          rw [if_neg (by rw [h4]; intro e; simp at e; omega), h4, h3]
          simp only [List.take_left, List.drop_left]
          refine .good c r _ h1 (ih r ?_)
          have := congrArg List.length h3
          simp at this
          omega

/-- The repaired string is determined. -/
theorem fixed_eq {s t : Bytes} (h : Fixed s t) : ∀ f, s.length ≤ f → t = fix f s := by
  induction h with
  | nil => intro f _; cases f <;> rfl
  | good c s t hc _ ih =>
    intro f hf
    by_cases hc2 : c < 128
    · obtain ⟨b, hb, hu, _⟩ := utf8_small c hc2
      rw [hu] at hf ⊢
      match f with
      | 0 => simp at hf
      | f + 1 =>
        simp only [List.cons_append, List.nil_append, List.length_cons] at hf ⊢
        rw [ih f (by omega), fix, if_pos hb]
    · have hd := decodeRune_utf8 c hc (by omega) s
      have hh := utf8_high c hc (by omega)
      have hl := utf8_length c (by omega)
      rw [List.length_append] at hf
      match f with
      | 0 => omega
      | f + 1 =>
        have hdrop : (utf8 c ++ s).drop (utf8 c).length = s := List.drop_left
        have htake : (utf8 c ++ s).take (utf8 c).length = utf8 c := List.take_left
        rw [ih f (by omega)]
        revert hd hh hl hdrop htake
        generalize utf8 c = u
        match u with
        | [] => intro _ _ hl; simp at hl
        | b :: u =>
          intro hd hh hl hdrop htake
          rw [List.cons_append] at hd hdrop htake ⊢
          have hb := hh b (by simp)
          conv_rhs => rw [List.cons_append, fix.eq_def]
          simp only []
          rw [if_neg (by rw [UInt8.lt_iff_toNat_lt]; simp; omega), hd, hdrop, htake, if_neg]
          · rfl
          · intro e
            simp only [Prod.mk.injEq] at e
            omega
  | bad b s t hn _ ih =>
    intro f hf
    match f with
    | 0 => simp at hf
    | f + 1 =>
      simp only [List.length_cons] at hf
      have hb : ¬ b < 128 := by
        intro hb
        apply hn _ (utf8_ascii b hb).1
        rw [(utf8_ascii b hb).2]
        exact ⟨s, rfl⟩
      rcases decodeRune_cases b s hb with e | ⟨c, q, h1, h2, h3, h4⟩
      · rw [ih f (by omega), fix, if_neg hb, if_pos e]
        rfl
      · exact absurd ⟨q, h3.symm⟩ (hn c h1)

theorem isHex_hex : ∀ i : Fin 16, isHex (hex i.val) = true ∧ unhex (hex i.val) = i.val := by decide +kernel

theorem scan_end (r : Bytes) : scanStr (34 :: r) = some ([], r) := by
  rw [scanStr.eq_def]
  simp

theorem scan_plain (b : UInt8) (r : Bytes) (h1 : b ≠ 34) (h2 : b ≠ 92) (h3 : ¬ b < 32) :
    scanStr (b :: r) = (scanStr r).map fun p => (b :: p.1, p.2) := by
  rw [scanStr.eq_def]
  simp only []
  rw [if_neg h1, if_neg h2, if_neg h3]

theorem scan_high (l r : Bytes) (h : ∀ b ∈ l, 128 ≤ b.toNat) :
    scanStr (l ++ r) = (scanStr r).map fun p => (l ++ p.1, p.2) := by
  induction l with
  | nil => simp
  | cons b l ih =>
    have hb := h b (by simp)
    have k : b ≠ 34 ∧ b ≠ 92 ∧ ¬ b < 32 := by
      refine ⟨?_, ?_, ?_⟩
      · rintro rfl; simp at hb
      · rintro rfl; simp at hb
      · rw [UInt8.lt_iff_toNat_lt]; simp; omega
    rw [List.cons_append, scan_plain _ _ k.1 k.2.1 k.2.2, ih (fun b hb => h b (by simp [hb]))]
    cases scanStr r <;> simp

/-- A `\u` with four hexadecimal digits. -/
theorem scan_u (h1 h2 h3 h4 : UInt8) (r : Bytes) (a1 : isHex h1) (a2 : isHex h2) (a3 : isHex h3) (a4 : isHex h4) :
    scanStr ([92, 117, h1, h2, h3, h4] ++ r) =
      (scanStr r).map fun p => ([92, 117, h1, h2, h3, h4] ++ p.1, p.2) := by
  simp only [List.cons_append, List.nil_append]
  rw [scanStr.eq_def]
  simp only []
  rw [if_neg (by decide), if_pos trivial, if_neg (by decide), if_pos trivial, a1, a2, a3, a4]
  rfl

theorem unquote_u (f : Nat) (h1 h2 h3 h4 : UInt8) (r : Bytes) (a1 : isHex h1) (a2 : isHex h2) (a3 : isHex h3)
    (a4 : isHex h4) (n : Nat) (hn : unhex h1 * 4096 + unhex h2 * 256 + unhex h3 * 16 + unhex h4 = n)
    (hs : ¬ (0xD800 ≤ n ∧ n < 0xE000)) :
    unquote (f + 1) ([92, 117, h1, h2, h3, h4] ++ r) = (unquote f r).map (encodeRune n ++ ·) := by
  simp only [List.cons_append, List.nil_append, unquote, getu4, a1, a2, a3, a4]
  rw [if_pos trivial, if_neg (by decide), if_neg (by decide), if_neg (by decide), if_neg (by decide),
    if_neg (by decide), if_neg (by decide), if_pos trivial, if_pos (by decide)]
  simp only [Option.bind_some, hn]
  rw [if_neg hs]
  rfl

/-- An escaped byte below 128 is scanned and comes back. -/
theorem escape_back (b : UInt8) (hb : b < 128) (hs : htmlSafe b = false) (r : Bytes) :
    (scanStr (escape b ++ r) = (scanStr r).map fun p => (escape b ++ p.1, p.2)) ∧
      ∀ f, unquote (f + 1) (escape b ++ r) = (unquote f r).map (b :: ·) := by
  unfold escape
  have two : ∀ e : UInt8, e = 98 ∨ e = 102 ∨ e = 110 ∨ e = 114 ∨ e = 116 ∨ e = 92 ∨ e = 47 ∨ e = 34 →
      scanStr ([92, e] ++ r) = (scanStr r).map fun p => ([92, e] ++ p.1, p.2) := by
    intro e he
    simp only [List.cons_append, List.nil_append]
    rw [scanStr.eq_def]
    simp only []
    rw [if_neg (by decide), if_pos trivial, if_pos he]
  split
  · rename_i h
    refine ⟨two b (by tauto), fun f => ?_⟩
    simp only [List.cons_append, List.nil_append, unquote]
    rw [if_pos trivial, if_pos (by tauto)]
  split
  · rename_i h; subst h; exact ⟨two _ (by decide), fun f => rfl⟩
  split
  · rename_i h; subst h; exact ⟨two _ (by decide), fun f => rfl⟩
  split
  · rename_i h; subst h; exact ⟨two _ (by decide), fun f => rfl⟩
  split
  · rename_i h; subst h; exact ⟨two _ (by decide), fun f => rfl⟩
  split
  · rename_i h; subst h; exact ⟨two _ (by decide), fun f => rfl⟩
  · have hlt : b.toNat < 128 := by rw [UInt8.lt_iff_toNat_lt] at hb; simpa using hb
    have x1 := isHex_hex ⟨b.toNat / 16, by omega⟩
    have x2 := isHex_hex ⟨b.toNat % 16, by omega⟩
    refine ⟨scan_u _ _ _ _ r rfl rfl x1.1 x2.1, fun f => ?_⟩
    have e : encodeRune b.toNat = [b] := by rw [encodeRune_scalar _ (utf8_ascii b hb).1, (utf8_ascii b hb).2]
    rw [unquote_u f _ _ _ _ r rfl rfl x1.1 x2.1 b.toNat ?_ (by omega), e]
    · rfl
    · rw [x1.2, x2.2]
      show 0 * 4096 + 0 * 256 + b.toNat / 16 * 16 + b.toNat % 16 = b.toNat
      omega

/-- The bytes of an encoded string are scanned up to the quote. -/
theorem scan_body (f : Nat) (s r : Bytes) : scanStr (body f s ++ 34 :: r) = some (body f s, r) := by
  induction f generalizing s with
  | zero => exact scan_end r
  | succ f ih => match s with
    | [] => exact scan_end r
    | b :: s =>
      by_cases hb : b < 128
      · simp only [body, if_pos hb]
        by_cases hs : htmlSafe b = true
        · rw [if_pos hs]
          have k : b ≠ 34 ∧ b ≠ 92 ∧ ¬ b < 32 := by
            simp only [htmlSafe, Bool.and_eq_true, bne_iff_ne, decide_eq_true_eq] at hs
            refine ⟨hs.1.1.1.1.2, hs.2, ?_⟩
            have := hs.1.1.1.1.1.1
            rw [UInt8.lt_iff_toNat_lt]
            rw [UInt8.le_iff_toNat_le] at this
            omega
          simp only [List.cons_append, List.nil_append]
          rw [scan_plain _ _ k.1 k.2.1 k.2.2, ih]
          rfl
        · rw [if_neg hs, List.append_assoc, (escape_back b hb (by simpa using hs) _).1, ih]
          rfl
      · simp only [body, if_neg hb]
        split
        · rw [List.append_assoc, scan_u _ _ _ _ _ rfl rfl rfl rfl, ih]
          rfl
        split
        · rename_i _ h
          rw [List.append_assoc, scan_u _ _ _ _ _ rfl rfl rfl (isHex_hex ⟨_, Nat.mod_lt _ (by decide)⟩).1, ih]
          rfl
        · rename_i h _
          rcases decodeRune_cases b s hb with e | ⟨c, q, h1, h2, h3, h4⟩
          · rw [e] at h; exact absurd ⟨rfl, rfl⟩ h
          · rw [h4, h3]
            simp only [List.take_left, List.drop_left]
            rw [List.append_assoc, scan_high _ _ (utf8_high c h1 h2), ih]
            rfl

theorem escape_pos (b : UInt8) : 0 < (escape b).length := by
  unfold escape
  split
  · simp
  split
  · simp
  split
  · simp
  split
  · simp
  split
  · simp
  split <;> simp

theorem body_pos (f : Nat) (b : UInt8) (s : Bytes) : 0 < (body (f + 1) (b :: s)).length := by
  have := escape_pos b
  by_cases hb : b < 128
  · simp only [body, if_pos hb]
    split
    · simp
    · rw [List.length_append]; omega
  · simp only [body, if_neg hb]
    split
    · simp
    split
    · simp
    · rename_i h _
      rcases decodeRune_cases b s hb with e | ⟨c, q, h1, h2, h3, h4⟩
      · rw [e] at h; exact absurd ⟨rfl, rfl⟩ h
      · have := utf8_length c h2
        rw [h4, h3]
        simp only [List.take_left, List.drop_left, List.length_append]
        omega

theorem unquote_high (c : Nat) (hc : Scalar c) (h : 128 ≤ c) (f : Nat) (r : Bytes) :
    unquote (f + 1) (utf8 c ++ r) = (unquote f r).map (utf8 c ++ ·) := by
  have hd := decodeRune_utf8 c hc h r
  have hh := utf8_high c hc h
  have hl := utf8_length c h
  have he := encodeRune_scalar c hc
  have hdrop : (utf8 c ++ r).drop (utf8 c).length = r := List.drop_left
  revert hd hh hl he hdrop
  generalize utf8 c = u
  match u with
  | [] => intro _ _ hl; simp at hl
  | b :: u =>
    intro hd hh _ he hdrop
    have hb := hh b (by simp)
    have k : b ≠ 34 ∧ b ≠ 92 ∧ ¬ b < 32 ∧ ¬ b < 128 := by
      refine ⟨?_, ?_, ?_, ?_⟩
      · rintro rfl; simp at hb
      · rintro rfl; simp at hb
      · rw [UInt8.lt_iff_toNat_lt]; simp; omega
      · rw [UInt8.lt_iff_toNat_lt]; simp; omega
    rw [List.cons_append] at hd hdrop ⊢
    rw [unquote.eq_def]
    simp only []
    rw [if_neg k.2.1, if_neg (by tauto), if_neg k.2.2.2, hd, hdrop, he]

/-- … and read back with the faulty bytes replaced. -/
theorem unquote_body (f g : Nat) (s : Bytes) (h : s.length ≤ f) (hg : (body f s).length ≤ g) :
    unquote g (body f s) = some (fix f s) := by
  induction f generalizing s g with
  | zero => simp [body, fix, unquote]
  | succ f ih => match s with
    | [] => simp [body, fix, unquote]
    | b :: s =>
      simp only [List.length_cons] at h
      match g with
      | 0 => have := body_pos f b s; omega
      | g + 1 =>
      by_cases hb : b < 128
      · simp only [body, if_pos hb, fix] at hg ⊢
        by_cases hs : htmlSafe b = true
        · rw [if_pos hs] at hg ⊢
          have k : b ≠ 34 ∧ b ≠ 92 ∧ ¬ b < 32 := by
            simp only [htmlSafe, Bool.and_eq_true, bne_iff_ne, decide_eq_true_eq] at hs
            refine ⟨hs.1.1.1.1.2, hs.2, ?_⟩
            have := hs.1.1.1.1.1.1
            rw [UInt8.lt_iff_toNat_lt]
            rw [UInt8.le_iff_toNat_le] at this
            omega
          simp only [List.cons_append, List.nil_append, List.length_cons] at hg ⊢
          rw [unquote.eq_def]
          simp only []
          rw [if_neg k.2.1, if_neg (by tauto), if_pos hb, ih g s (by omega) (by omega)]
          rfl
        · rw [if_neg hs] at hg ⊢
          have := escape_pos b
          rw [List.length_append] at hg
          rw [(escape_back b hb (by simpa using hs) _).2, ih g s (by omega) (by omega)]
          rfl
      · simp only [body, if_neg hb, fix] at hg ⊢
        rcases decodeRune_cases b s hb with e | ⟨c, q, h1, h2, h3, h4⟩
        · rw [e, if_pos ⟨rfl, rfl⟩] at hg ⊢
          rw [if_pos rfl]
          rw [List.length_append] at hg
          simp only [List.length_cons] at hg
          rw [unquote_u g _ _ _ _ _ rfl rfl rfl rfl 0xFFFD rfl (by decide), ih g s (by omega) (by omega)]
          rfl
        · have hl := utf8_length c h2
          have hlen := congrArg List.length h3
          rw [List.length_append, List.length_cons] at hlen
          have k1 : ¬ ((decodeRune (b :: s)).1 = runeError ∧ (decodeRune (b :: s)).2 = 1) := by rw [h4]; simp; omega
          have k2 : decodeRune (b :: s) ≠ (runeError, 1) := by rw [h4]; intro e; simp at e; omega
          rw [if_neg k1] at hg ⊢
          rw [if_neg k2]
          rw [h4, h3] at hg ⊢
          simp only [List.take_left, List.drop_left] at hg ⊢
          by_cases hc : c = 0x2028 ∨ c = 0x2029
          · rw [if_pos hc] at hg ⊢
            rw [List.length_append] at hg
            simp only [List.length_cons] at hg
            rw [← encodeRune_scalar c h1]
            rcases hc with rfl | rfl
            · rw [unquote_u g _ _ _ _ _ rfl rfl rfl rfl 0x2028 rfl (by decide), ih g q (by omega) (by omega)]
              rfl
            · rw [unquote_u g _ _ _ _ _ rfl rfl rfl rfl 0x2029 rfl (by decide), ih g q (by omega) (by omega)]
              rfl
          · rw [if_neg hc] at hg ⊢
            rw [List.length_append] at hg
            rw [unquote_high c h1 h2, ih g q (by omega) (by omega)]
            rfl

/-! ## Numbers -/

theorem digit_ofNat (n : Nat) (h : n < 10) :
    isDigit (UInt8.ofNat (48 + n)) = true ∧ (UInt8.ofNat (48 + n)).toNat = 48 + n := by
  have := toNat_ofNat (48 + n) (by omega)
  refine ⟨?_, this⟩
  simp only [isDigit, Bool.and_eq_true, decide_eq_true_eq, UInt8.le_iff_toNat_le, this]
  simp; omega

theorem parseNat_snoc (l : Bytes) (b : UInt8) : parseNat (l ++ [b]) = parseNat l * 10 + (b.toNat - 48) := by
  simp [parseNat]

theorem digits_spec (f n : Nat) (h : n < 10 ^ f) (hf : 0 < f) :
    (∀ b ∈ digits f n, isDigit b = true) ∧ parseNat (digits f n) = n ∧
      ∃ b l, digits f n = b :: l ∧ (b = 48 → l = []) := by
  induction f generalizing n with
  | zero => omega
  | succ f ih =>
    unfold digits
    split
    · rename_i hn
      obtain ⟨h1, h2⟩ := digit_ofNat n hn
      refine ⟨by simpa using h1, ?_, _, [], rfl, fun _ => rfl⟩
      simp only [parseNat, List.foldl_cons, List.foldl_nil, h2]; omega
    · rename_i hn
      have hf' : 0 < f := by
        rcases Nat.eq_zero_or_pos f with rfl | h'
        · simp at h; omega
        · exact h'
      obtain ⟨a1, a2, b, l, a3, a4⟩ := ih (n / 10) (by rw [Nat.pow_succ] at h; omega) hf'
      obtain ⟨h1, h2⟩ := digit_ofNat (n % 10) (by omega)
      refine ⟨?_, ?_, b, l ++ [UInt8.ofNat (48 + n % 10)], by rw [a3]; rfl, ?_⟩
      · intro x hx
        rw [List.mem_append, List.mem_singleton] at hx
        rcases hx with hx | rfl
        · exact a1 x hx
        · exact h1
      · rw [parseNat_snoc, a2, h2]; omega
      · intro hb
        have := a4 hb
        rw [a3, this, hb] at a2
        have : n / 10 = 0 := by rw [← a2]; rfl
        omega

/-- What may follow a number. -/
def Ends (r : Bytes) : Prop :=
  ∀ b, r.head? = some b → b = 44 ∨ b = 93 ∨ b = 125 ∨ b = 32 ∨ b = 9 ∨ b = 13 ∨ b = 10

theorem span_digits (l r : Bytes) (h : ∀ b ∈ l, isDigit b = true) (hr : Ends r) : span (l ++ r) = (l, r) := by
  induction l with
  | nil => match r with
    | [] => rfl
    | b :: r =>
      rcases hr b rfl with rfl | rfl | rfl | rfl | rfl | rfl | rfl <;> rfl
  | cons b l ih =>
    rw [List.cons_append, span, if_pos (h b (by simp)), ih (fun b hb => h b (by simp [hb]))]

theorem fraction_ends (r : Bytes) (hr : Ends r) : fraction r = some ([], r) := by
  match r with
  | [] => rfl
  | b :: r => rcases hr b rfl with rfl | rfl | rfl | rfl | rfl | rfl | rfl <;> rfl

theorem exponent_ends (r : Bytes) (hr : Ends r) : exponent r = some ([], r) := by
  match r with
  | [] => rfl
  | b :: r => rcases hr b rfl with rfl | rfl | rfl | rfl | rfl | rfl | rfl <;> rfl

theorem whole_digits (f n : Nat) (h : n < 10 ^ f) (hf : 0 < f) (r : Bytes) (hr : Ends r) :
    whole (digits f n ++ r) = some (digits f n, r) := by
  obtain ⟨h1, _, b, l, h2, h3⟩ := digits_spec f n h hf
  rw [h2] at h1 ⊢
  rw [List.cons_append, whole]
  split
  · rename_i hb; rw [h3 hb, hb]; rfl
  · rw [if_pos (h1 b (by simp)), span_digits l r (fun b hb => h1 b (by simp [hb])) hr]

theorem minus_digits (f n : Nat) (h : n < 10 ^ f) (hf : 0 < f) (r : Bytes) :
    minus (digits f n ++ r) = ([], digits f n ++ r) := by
  obtain ⟨h1, _, b, l, h2, _⟩ := digits_spec f n h hf
  rw [h2] at h1 ⊢
  rw [List.cons_append, minus, if_neg]
  rintro rfl
  exact absurd (h1 45 (by simp)) (by decide)

theorem natAbs_bound (i : Int) (h : -(2 : Int) ^ 63 ≤ i ∧ i < 2 ^ 63) : i.natAbs < 10 ^ 20 := by
  have : (10 : Nat) ^ 20 = 100000000000000000000 := by norm_num
  have : (2 : Int) ^ 63 = 9223372036854775808 := by norm_num
  omega

theorem number_itoa (i : Int) (h : -(2 : Int) ^ 63 ≤ i ∧ i < 2 ^ 63) (r : Bytes) (hr : Ends r) :
    number (itoa i ++ r) = some (itoa i, r) := by
  have hb := natAbs_bound i h
  have w := whole_digits 20 i.natAbs hb (by decide) r hr
  have m := minus_digits 20 i.natAbs hb (by decide) r
  unfold itoa number
  split
  · have e : minus (45 :: digits 20 i.natAbs ++ r) = ([45], digits 20 i.natAbs ++ r) := rfl
    rw [e]
    simp only [w, fraction_ends r hr, exponent_ends r hr, Option.bind_some, Option.map_some]
    simp
  · rw [m]
    simp only [w, fraction_ends r hr, exponent_ends r hr, Option.bind_some, Option.map_some]
    simp

theorem parseInt_itoa (i : Int) (h : -(2 : Int) ^ 63 ≤ i ∧ i < 2 ^ 63) : parseInt (itoa i) = some i := by
  have hb := natAbs_bound i h
  obtain ⟨h1, h2, _⟩ := digits_spec 20 i.natAbs hb (by decide)
  have m := minus_digits 20 i.natAbs hb (by decide) []
  simp only [List.append_nil] at m
  have ha : (digits 20 i.natAbs).all isDigit = true := by simpa using h1
  unfold itoa parseInt
  split
  · have e : minus (45 :: digits 20 i.natAbs) = ([45], digits 20 i.natAbs) := rfl
    simp only [e, ha, h2]
    rw [if_pos trivial, if_pos trivial, if_pos (by omega)]
    congr 1; omega
  · simp only [m, ha, h2]
    have e : ¬ (([] : Bytes) = [45]) := by decide
    simp only [if_neg e]
    rw [if_pos trivial, if_pos (by omega)]
    congr 1; omega

/-! ## Documents -/

/-- The tree of the encoded value. -/
def tree : (t : Ty) → Val t → Tree
  | .bool, b => .bool b
  | .int, i => .num (itoa i)
  | .str, s => .str (body s.length s)
  | .list t, v =>
    match v with
    | none => .null
    | some l => .arr (l.map (tree t))
  | .map t, v =>
    match v with
    | none => .null
    | some l => .obj (l.map fun e => (body e.1.length e.1, tree t e.2))

/-- The value that comes back. -/
def san : (t : Ty) → Val t → Val t
  | .bool, b => b
  | .int, i => i
  | .str, s => fix s.length s
  | .list t, v => v.map (List.map (san t))
  | .map t, v => v.map fun l => filled (l.map fun e => (fix e.1.length e.1, san t e.2))

/-- A byte with which a value begins. -/
def Begins (b : UInt8) : Prop := b ≠ 93 ∧ b ≠ 125 ∧ isSpace b = false

instance (b : UInt8) : Decidable (Begins b) := by unfold Begins; infer_instance

theorem digit_begins (b : UInt8) (h : isDigit b = true) : Begins b ∧ b ≠ 34 ∧ b ≠ 91 ∧ b ≠ 123 ∧ b ≠ 116 ∧ b ≠ 102 ∧ b ≠ 110 := by
  revert h
  unfold Begins
  revert b
  exact all8 (by decide +kernel)

theorem itoa_head (i : Int) (h : -(2 : Int) ^ 63 ≤ i ∧ i < 2 ^ 63) :
    ∃ b l, itoa i = b :: l ∧ Begins b ∧ b ≠ 34 ∧ b ≠ 91 ∧ b ≠ 123 ∧ b ≠ 116 ∧ b ≠ 102 ∧ b ≠ 110 := by
  unfold itoa
  split
  · exact ⟨45, _, rfl, by decide, by decide⟩
  · obtain ⟨h1, _, b, l, h2, _⟩ := digits_spec 20 i.natAbs (natAbs_bound i h) (by decide)
    exact ⟨b, l, h2, digit_begins b (h1 b (by rw [h2]; simp))⟩

theorem encode_head (t : Ty) (v : Val t) (h : WF t v) : ∃ b l, jsonEncode t v = b :: l ∧ Begins b := by
  match t, v with
  | .bool, true => exact ⟨_, _, rfl, by decide⟩
  | .bool, false => exact ⟨_, _, rfl, by decide⟩
  | .int, i => obtain ⟨b, l, h1, h2, _⟩ := itoa_head i h; exact ⟨b, l, h1, h2⟩
  | .str, s => exact ⟨_, _, rfl, by decide⟩
  | .list t, none => exact ⟨_, _, rfl, by decide⟩
  | .list t, some l => exact ⟨_, _, rfl, by decide⟩
  | .map t, none => exact ⟨_, _, rfl, by decide⟩
  | .map t, some l => exact ⟨_, _, rfl, by decide⟩

theorem skip_begins (b : UInt8) (r : Bytes) (h : isSpace b = false) : skip (b :: r) = b :: r := by
  rw [skip, if_neg (by simp [h])]

theorem word_append (p r : Bytes) : word p (p ++ r) = some r := by
  unfold word
  rw [if_pos (by simp)]
  simp

theorem ends_comma (r : Bytes) : Ends (44 :: r) := by intro b h; simp at h; tauto
theorem ends_bracket (r : Bytes) : Ends (93 :: r) := by intro b h; simp at h; tauto
theorem ends_brace (r : Bytes) : Ends (125 :: r) := by intro b h; simp at h; tauto

/-- Scanning the encoded value gives its tree. -/
def Scans (t : Ty) : Prop := ∀ (v : Val t), WF t v → ∀ (f d : Nat) (r : Bytes), Ends r → d + depth t ≤ maxDepth →
  2 * (jsonEncode t v).length ≤ f → value f d (jsonEncode t v ++ r) = some (tree t v, r)

theorem elems_scan (t : Ty) (ht : Scans t) (x : Val t) (l : List (Val t)) (hx : ∀ y ∈ x :: l, WF t y) (f d : Nat) (r : Bytes)
    (hd : d + depth t ≤ maxDepth) (hf : 2 * (commas ((x :: l).map (jsonEncode t))).length + 1 ≤ f) :
    elems f d (commas ((x :: l).map (jsonEncode t)) ++ 93 :: r) = some ((x :: l).map (tree t), r) := by
  induction l generalizing x f with
  | nil =>
    simp only [List.map_cons, List.map_nil, commas] at hf ⊢
    match f with
    | 0 => omega
    | f + 1 =>
      rw [elems, ht x (hx x (by simp)) f d _ (ends_bracket r) hd (by omega)]
      rfl
  | cons y l ih =>
    simp only [List.map_cons, commas, List.length_append, List.length_cons] at hf ⊢
    match f with
    | 0 => omega
    | f + 1 =>
      rw [List.append_assoc, List.cons_append, elems,
        ht x (hx x (by simp)) f d _ (ends_comma _) hd (by omega)]
      simp only [Option.bind_some]
      rw [skip_begins 44 _ rfl]
      simp only []
      rw [if_pos trivial]
      have := ih y (fun z hz => hx z (by simp at hz ⊢; tauto)) f (by simp only [List.map_cons]; omega)
      simp only [List.map_cons] at this
      rw [this]
      rfl

/-- A member as it is written. -/
def member (t : Ty) (e : Bytes × Val t) : Bytes := quote e.1 ++ 58 :: jsonEncode t e.2

theorem members_step (f d : Nat) (k rest : Bytes) (q : Bytes) (p : Tree × Bytes)
    (hv : value f d rest = some p) (hk : k = quote q) :
    members (f + 1) d (k ++ 58 :: rest) =
      match skip p.2 with
      | [] => none
      | c :: r =>
        if c = 44 then (members f d r).map fun z => ((body q.length q, p.1) :: z.1, z.2)
        else if c = 125 then some ([(body q.length q, p.1)], r)
        else none := by
  subst hk
  unfold quote
  simp only [List.cons_append, List.append_assoc, List.nil_append]
  rw [members, skip_begins 34 _ rfl]
  simp only []
  rw [if_pos trivial, scan_body]
  simp only [Option.bind_some]
  rw [skip_begins 58 _ rfl]
  simp only []
  rw [if_pos trivial, hv]
  rfl

theorem members_scan (t : Ty) (ht : Scans t) (x : Bytes × Val t) (l : List (Bytes × Val t))
    (hx : ∀ y ∈ x :: l, WF t y.2) (f d : Nat) (r : Bytes)
    (hd : d + depth t ≤ maxDepth) (hf : 2 * (commas ((x :: l).map (member t))).length + 1 ≤ f) :
    members f d (commas ((x :: l).map (member t)) ++ 125 :: r) =
      some ((x :: l).map (fun e => (body e.1.length e.1, tree t e.2)), r) := by
  induction l generalizing x f with
  | nil =>
    simp only [List.map_cons, List.map_nil, commas] at hf ⊢
    match f with
    | 0 => omega
    | f + 1 =>
      simp only [member, List.length_append, List.length_cons] at hf
      have hv := ht x.2 (hx x (by simp)) f d _ (ends_brace r) hd (by omega)
      rw [member, List.append_assoc, List.cons_append, members_step f d _ _ x.1 _ hv rfl]
      rfl
  | cons y l ih =>
    simp only [List.map_cons, commas, List.length_append, List.length_cons] at hf ⊢
    match f with
    | 0 => omega
    | f + 1 =>
      have := ih y (fun z hz => hx z (by simp at hz ⊢; tauto)) f (by simp only [List.map_cons]; omega)
      simp only [List.map_cons] at this
      rw [List.append_assoc, List.cons_append]
      generalize commas (member t y :: List.map (member t) l) ++ 125 :: r = rest at this
      simp only [member, List.length_append, List.length_cons] at hf
      have hv := ht x.2 (hx x (by simp)) f d (44 :: rest) (ends_comma _) hd (by omega)
      rw [member, List.append_assoc, List.cons_append, members_step f d _ _ x.1 _ hv rfl]
      rw [skip_begins 44 _ rfl]
      simp only []
      rw [if_pos trivial, this]
      rfl

theorem commas_head {A : Type} (g : A → Bytes) (x : A) (l : List A) (b : UInt8) (q : Bytes) (h : g x = b :: q) (r : Bytes) :
    ∃ q', commas ((x :: l).map g) ++ r = b :: q' := by
  cases l with
  | nil => exact ⟨q ++ r, by simp [commas, h]⟩
  | cons y l => exact ⟨q ++ 44 :: (commas ((y :: l).map g) ++ r), by simp [commas, h]⟩

theorem scans (t : Ty) : Scans t := by
  induction t with
  | bool =>
    intro v _ f d r _ _ hf
    match f with
    | 0 => cases v <;> simp [jsonEncode] at hf
    | f + 1 => cases v <;> rfl
  | int =>
    intro v hv f d r hr _ hf
    obtain ⟨b, l, h1, h2, h3⟩ := itoa_head v hv
    have hn := number_itoa v hv r hr
    simp only [jsonEncode] at hf ⊢
    match f with
    | 0 => rw [h1] at hf; simp at hf
    | f + 1 =>
      show value (f + 1) d (itoa v ++ r) = some (.num (itoa v), r)
      rw [h1] at hn ⊢
      rw [List.cons_append] at hn ⊢
      rw [value, skip_begins b _ h2.2.2]
      simp only []
      rw [if_neg h3.1, if_neg h3.2.1, if_neg h3.2.2.1, if_neg h3.2.2.2.1, if_neg h3.2.2.2.2.1, if_neg h3.2.2.2.2.2,
        hn]
      rfl
  | str =>
    intro v _ f d r _ _ hf
    match f with
    | 0 => simp [jsonEncode, quote] at hf
    | f + 1 =>
      show value (f + 1) d (34 :: (body v.length v ++ [34]) ++ r) = some (.str (body v.length v), r)
      simp only [List.cons_append, List.append_assoc, List.nil_append]
      rw [value, skip_begins 34 _ rfl]
      simp only []
      rw [if_pos trivial, scan_body]
      rfl
  | list t ih =>
    intro v hv f d r _ hd hf
    match f, v with
    | 0, none => simp [jsonEncode] at hf
    | 0, some l => simp [jsonEncode] at hf
    | f + 1, none => rfl
    | f + 1, some [] =>
      show value (f + 1) d (91 :: 93 :: r) = some (.arr [], r)
      rw [value, skip_begins 91 _ rfl]
      simp only []
      simp only [depth] at hd
      rw [if_neg (by decide), if_pos trivial, if_neg (by omega), skip_begins 93 _ rfl]
      rfl
    | f + 1, some (x :: l) =>
      have hx : ∀ y ∈ x :: l, WF t y := hv _ rfl
      simp only [depth] at hd
      have he := elems_scan t ih x l hx f (d + 1) r (by omega) (by simp [jsonEncode] at hf ⊢; omega)
      obtain ⟨b, q, h1, h2⟩ := encode_head t x (hx x (by simp))
      obtain ⟨q', h3⟩ := commas_head (jsonEncode t) x l b q h1 (93 :: r)
      show value (f + 1) d (91 :: (commas ((x :: l).map (jsonEncode t)) ++ [93]) ++ r) = some (.arr ((x :: l).map (tree t)), r)
      simp only [List.cons_append, List.append_assoc, List.nil_append]
      rw [h3] at he ⊢
      rw [value, skip_begins 91 _ rfl]
      simp only []
      rw [if_neg (by decide), if_pos trivial, if_neg (by omega), skip_begins b _ h2.2.2, if_neg (by simp; exact h2.1), he]
      rfl
  | map t ih =>
    intro v hv f d r _ hd hf
    match f, v with
    | 0, none => simp [jsonEncode] at hf
    | 0, some l => simp [jsonEncode] at hf
    | f + 1, none => rfl
    | f + 1, some [] =>
      show value (f + 1) d (123 :: 125 :: r) = some (.obj [], r)
      rw [value, skip_begins 123 _ rfl]
      simp only []
      simp only [depth] at hd
      rw [if_neg (by decide), if_neg (by decide), if_pos trivial, if_neg (by omega), skip_begins 125 _ rfl]
      rfl
    | f + 1, some (x :: l) =>
      have hx : ∀ y ∈ x :: l, WF t y.2 := (hv _ rfl).2
      simp only [depth] at hd
      have hf' : 2 * (123 :: (commas ((x :: l).map (member t)) ++ [125])).length ≤ f + 1 := hf
      have he := members_scan t ih x l hx f (d + 1) r (by omega) (by simp at hf' ⊢; omega)
      obtain ⟨q', h3⟩ := commas_head (member t) x l 34 _ (by unfold member quote; rfl) (125 :: r)
      show value (f + 1) d (123 :: (commas ((x :: l).map (member t)) ++ [125]) ++ r) =
        some (.obj ((x :: l).map fun e => (body e.1.length e.1, tree t e.2)), r)
      simp only [List.cons_append, List.append_assoc, List.nil_append]
      rw [h3] at he ⊢
      rw [value, skip_begins 123 _ rfl]
      simp only []
      rw [if_neg (by decide), if_neg (by decide), if_pos trivial, if_neg (by omega), skip_begins 34 _ rfl,
        if_neg (by simp), he]
      rfl

theorem all_map {A B C : Type} (g : A → B) (h : B → Option C) (k : A → C) (l : List A) (hl : ∀ a ∈ l, h (g a) = some (k a)) :
    all h (l.map g) = some (l.map k) := by
  induction l with
  | nil => rfl
  | cons a l ih =>
    simp only [List.map_cons, all, hl a (by simp), ih (fun b hb => hl b (by simp [hb])), Option.bind_some, Option.map_some]

theorem get_tree (t : Ty) (v : Val t) (h : WF t v) : get t (tree t v) = some (san t v) := by
  induction t with
  | bool => rfl
  | int => exact parseInt_itoa v h
  | str => exact unquote_body _ _ v (le_refl _) (le_refl _)
  | list t ih =>
    match v with
    | none => rfl
    | some l =>
      simp only [tree, get, san, Option.map_some]
      rw [all_map (tree t) (get t) (san t) l (fun a ha => ih a (h l rfl a ha))]
      rfl
  | map t ih =>
    match v with
    | none => rfl
    | some l =>
      simp only [tree, get, san, Option.map_some]
      rw [all_map _ _ (fun e => (fix e.1.length e.1, san t e.2)) l]
      · rfl
      · intro e he
        simp only [unquote_body _ _ e.1 (le_refl _) (le_refl _), ih e.2 ((h l rfl).2 e he), Option.bind_some,
          Option.map_some]

theorem decode_encode (t : Ty) (v : Val t) (h : WF t v) (hd : depth t ≤ maxDepth) :
    jsonDecode t (jsonEncode t v) = some (san t v) := by
  have := scans t v h (2 * (jsonEncode t v).length + 2) 0 [] (by intro b hb; simp at hb) (by omega) (by omega)
  rw [List.append_nil] at this
  unfold jsonDecode
  rw [this]
  simp only [Option.bind_some]
  rw [show skip [] = [] from rfl, if_pos rfl, get_tree t v h]

/-! ## Repaired values -/

theorem repaired_san (t : Ty) (v : Val t) : Repaired t v (san t v) := by
  induction t with
  | bool => rfl
  | int => rfl
  | str => exact fixed_fix _ v (le_refl _)
  | list t ih =>
    match v with
    | none => trivial
    | some l =>
      show List.Forall₂ (Repaired t) l (l.map (san t))
      rw [List.forall₂_map_right_iff]
      exact List.forall₂_same.2 fun x _ => ih x
  | map t ih =>
    match v with
    | none => trivial
    | some l =>
      refine ⟨l.map fun e => (fix e.1.length e.1, san t e.2), ?_, rfl⟩
      rw [List.forall₂_map_right_iff]
      exact List.forall₂_same.2 fun e _ => ⟨fixed_fix _ e.1 (le_refl _), ih e.2⟩

theorem repaired_unique (t : Ty) (v w : Val t) (h : Repaired t v w) : w = san t v := by
  induction t with
  | bool => exact h
  | int => exact h
  | str => exact fixed_eq h _ (le_refl _)
  | list t ih =>
    match v, w with
    | none, none => rfl
    | some l, some l' =>
      have h' : List.Forall₂ (Repaired t) l l' := h
      show some l' = some (l.map (san t))
      congr 1
      induction h' with
      | nil => rfl
      | cons a _ k => rw [List.map_cons, ← ih _ _ a, k (by assumption)]
    | none, some _ => exact h.elim
    | some _, none => exact h.elim
  | map t ih =>
    match v, w with
    | none, none => rfl
    | some l, some l' =>
      obtain ⟨m, hm, rfl⟩ := h
      show some (filled m) = some (filled (l.map fun e => (fix e.1.length e.1, san t e.2)))
      congr 2
      induction hm with
      | nil => rfl
      | cons a _ k =>
        rw [List.map_cons, ← k]
        congr 1
        exact Prod.ext (fixed_eq a.1 _ (le_refl _)) (ih _ _ a.2)
    | none, some _ => exact h.elim
    | some _, none => exact h.elim

/-- A text is not changed. -/
theorem fixed_text {s : Bytes} (h : Text s) : Fixed s s := by
  induction h with
  | nil => exact .nil
  | cons c s hc _ ih => exact .good c s s hc ih

theorem text_fixed {s t : Bytes} (h : Fixed s t) : Text t := by
  induction h with
  | nil => exact .nil
  | good c s t hc _ ih => exact .cons c t hc ih
  | bad b s t _ _ ih => exact .cons 0xFFFD t (Or.inr (by decide)) ih

theorem fix_text (s : Bytes) (h : Text s) : fix s.length s = s := (fixed_eq (fixed_text h) _ (le_refl _)).symm

theorem put_last {A : Type} (k : Bytes) (v : A) (l : List (Bytes × A)) (h : ∀ e ∈ l, e.1 < k) : put k v l = l ++ [(k, v)] := by
  induction l with
  | nil => rfl
  | cons e l ih =>
    obtain ⟨k', v'⟩ := e
    have h1 : k' < k := h (k', v') (by simp)
    rw [put, if_neg (List.lt_asymm h1), if_neg (by rintro rfl; exact List.lt_irrefl _ h1), ih (fun e he => h e (by simp [he]))]
    rfl

theorem filled_sorted {A : Type} (l : List (Bytes × A)) (h : l.Pairwise (fun a b => a.1 < b.1)) : filled l = l := by
  unfold filled
  induction l using List.reverseRecOn with
  | nil => rfl
  | append_singleton l e ih =>
    rw [List.pairwise_append] at h
    rw [List.foldl_append, ih h.1]
    exact put_last e.1 e.2 l (fun x hx => h.2.2 x hx e (by simp))

theorem mem_put {A : Type} (k : Bytes) (v : A) (l : List (Bytes × A)) (e : Bytes × A) (h : e ∈ put k v l) : e = (k, v) ∨ e ∈ l := by
  induction l with
  | nil => simpa [put] using h
  | cons a l ih =>
    obtain ⟨k', v'⟩ := a
    rw [put] at h
    split at h
    · simpa using h
    split at h
    · simp at h ⊢; tauto
    · simp only [List.mem_cons] at h ⊢
      rcases h with h | h
      · tauto
      · have := ih h; tauto

theorem put_sorted {A : Type} (k : Bytes) (v : A) (l : List (Bytes × A)) (h : l.Pairwise (fun a b => a.1 < b.1)) :
    (put k v l).Pairwise (fun a b => a.1 < b.1) := by
  induction l with
  | nil => simp [put]
  | cons a l ih =>
    obtain ⟨k', v'⟩ := a
    rw [List.pairwise_cons] at h
    rw [put]
    split
    · rename_i hk
      rw [List.pairwise_cons]
      refine ⟨?_, List.pairwise_cons.2 h⟩
      intro e he
      rw [List.mem_cons] at he
      rcases he with rfl | he
      · exact hk
      · exact List.lt_trans hk (h.1 e he)
    split
    · rename_i hk
      subst hk
      exact List.pairwise_cons.2 h
    · rename_i h1 h2
      rw [List.pairwise_cons]
      refine ⟨?_, ih h.2⟩
      intro e he
      rcases mem_put _ _ _ _ he with rfl | he
      · exact Classical.byContradiction fun h3 => h2 (List.le_antisymm h3 h1)
      · exact h.1 e he

theorem filled_wf {A : Type} (l : List (Bytes × A)) :
    (filled l).Pairwise (fun a b => a.1 < b.1) ∧ ∀ e ∈ filled l, e ∈ l := by
  unfold filled
  induction l using List.reverseRecOn with
  | nil => simp
  | append_singleton l e ih =>
    rw [List.foldl_append]
    refine ⟨put_sorted _ _ _ ih.1, ?_⟩
    intro x hx
    rcases mem_put _ _ _ _ hx with rfl | hx
    · simp
    · simp [ih.2 x hx]

/-- Values of texts are not changed. -/
theorem san_texts (t : Ty) (v : Val t) (hw : WF t v) (h : Texts t v) : san t v = v := by
  induction t with
  | bool => rfl
  | int => rfl
  | str => exact fix_text v h
  | list t ih =>
    match v with
    | none => rfl
    | some l =>
      show some (l.map (san t)) = some l
      congr 1
      calc l.map (san t) = l.map id := List.map_congr_left fun x hx => ih x (hw l rfl x hx) (h l rfl x hx)
        _ = l := List.map_id l
  | map t ih =>
    match v with
    | none => rfl
    | some l =>
      show some (filled (l.map fun e => (fix e.1.length e.1, san t e.2))) = some l
      congr 1
      have e : (l.map fun e => (fix e.1.length e.1, san t e.2)) = l := by
        calc (l.map fun e => (fix e.1.length e.1, san t e.2)) = l.map id := by
              refine List.map_congr_left fun x hx => ?_
              exact Prod.ext (fix_text _ (h l rfl x hx).1) (ih x.2 ((hw l rfl).2 x hx) (h l rfl x hx).2)
          _ = l := List.map_id l
      rw [e]
      exact filled_sorted l (hw l rfl).1

/-- What comes back is a value of texts. -/
theorem texts_san (t : Ty) (v : Val t) (hw : WF t v) : WF t (san t v) ∧ Texts t (san t v) := by
  induction t with
  | bool => exact ⟨trivial, trivial⟩
  | int => exact ⟨hw, trivial⟩
  | str => exact ⟨trivial, text_fixed (fixed_fix _ v (le_refl _))⟩
  | list t ih =>
    match v with
    | none => exact ⟨fun l h => by simp [san] at h, fun l h => by simp [san] at h⟩
    | some l =>
      have key : ∀ x ∈ l.map (san t), WF t x ∧ Texts t x := by
        intro x hx
        obtain ⟨y, hy, rfl⟩ := List.mem_map.1 hx
        exact ih y (hw l rfl y hy)
      refine ⟨fun l' h => ?_, fun l' h => ?_⟩ <;>
      · simp only [san, Option.map_some, Option.some.injEq] at h
        subst h
        intro x hx
        first | exact (key x hx).1 | exact (key x hx).2
  | map t ih =>
    match v with
    | none => exact ⟨fun l h => by simp [san] at h, fun l h => by simp [san] at h⟩
    | some l =>
      obtain ⟨h1, h2⟩ := filled_wf (l.map fun e => (fix e.1.length e.1, san t e.2))
      have key : ∀ x ∈ filled (l.map fun e => (fix e.1.length e.1, san t e.2)), Text x.1 ∧ WF t x.2 ∧ Texts t x.2 := by
        intro x hx
        obtain ⟨y, hy, rfl⟩ := List.mem_map.1 (h2 x hx)
        exact ⟨text_fixed (fixed_fix _ y.1 (le_refl _)), ih y.2 ((hw l rfl).2 y hy)⟩
      refine ⟨fun l' h => ?_, fun l' h => ?_⟩
      · simp only [san, Option.map_some, Option.some.injEq] at h
        subst h
        exact ⟨h1, fun x hx => (key x hx).2.1⟩
      · simp only [san, Option.map_some, Option.some.injEq] at h
        subst h
        exact fun x hx => ⟨(key x hx).1, (key x hx).2.2⟩

/-! ## Depth -/

/-- Brackets nested too deeply are refused. -/
theorem too_deep (k f d : Nat) (r : Bytes) (h : maxDepth ≤ d + k) :
    value f d (List.replicate (k + 1) 91 ++ r) = none := by
  induction k generalizing f d with
  | zero =>
    match f with
    | 0 => rfl
    | f + 1 =>
      show value (f + 1) d (91 :: r) = none
      rw [value, skip_begins 91 _ rfl]
      simp only []
      rw [if_neg (by decide), if_pos trivial, if_pos (by omega)]
  | succ k ih =>
    match f with
    | 0 => rfl
    | f + 1 =>
      have e : (List.replicate (k + 1 + 1) 91 ++ r : Bytes) = 91 :: (List.replicate (k + 1) 91 ++ r) := rfl
      have e2 : (List.replicate (k + 1) 91 ++ r : Bytes) = 91 :: (List.replicate k 91 ++ r) := rfl
      have hs : skip (List.replicate (k + 1) 91 ++ r) = 91 :: (List.replicate k 91 ++ r) := by
        rw [e2]; exact skip_begins 91 _ rfl
      rw [e, value, skip_begins 91 _ rfl]
      simp only []
      rw [if_neg (by decide), if_pos trivial, hs]
      split
      · rfl
      rw [if_neg (by simp)]
      match f with
      | 0 => rfl
      | f + 1 => rw [elems, ih f (d + 1) (by omega)]; rfl

/-! ## The bytes of the document -/

/-- Neither a control byte nor one of `<`, `>`, `&`. -/
def Plain (b : UInt8) : Prop := 32 ≤ b.toNat ∧ b ≠ 60 ∧ b ≠ 62 ∧ b ≠ 38

instance (b : UInt8) : Decidable (Plain b) := by unfold Plain; infer_instance

theorem plain_high (b : UInt8) (h : 128 ≤ b.toNat) : Plain b := by
  refine ⟨by omega, ?_, ?_, ?_⟩ <;> rintro rfl <;> simp at h

theorem plain_hex : ∀ i : Fin 16, Plain (hex i.val) := by decide +kernel

theorem plain_safe (b : UInt8) (h : htmlSafe b = true) : Plain b := by
  revert h; revert b
  exact all8 (by decide +kernel)

theorem plain_escape (b : UInt8) (hb : b < 128) : ∀ x ∈ escape b, Plain x := by
  revert hb; revert b
  exact all8 (by decide +kernel)

theorem plain_body (f : Nat) (s : Bytes) : ∀ b ∈ body f s, Plain b := by
  induction f generalizing s with
  | zero => simp [body]
  | succ f ih => match s with
    | [] => simp [body]
    | b :: s =>
      intro x hx
      by_cases hb : b < 128
      · simp only [body, if_pos hb, List.mem_append] at hx
        rcases hx with hx | hx
        · split at hx
          · rename_i hs; simp at hx; subst hx; exact plain_safe x hs
          · exact plain_escape b hb x hx
        · exact ih s x hx
      · simp only [body, if_neg hb] at hx
        split at hx
        · rw [List.mem_append] at hx
          rcases hx with hx | hx
          · revert hx; revert x; decide
          · exact ih _ x hx
        split at hx
        · rw [List.mem_append] at hx
          rcases hx with hx | hx
          · simp only [List.mem_cons, List.not_mem_nil, or_false] at hx
            rcases hx with rfl | rfl | rfl | rfl | rfl | rfl
            · decide
            · decide
            · decide
            · decide
            · decide
            · exact plain_hex ⟨_, Nat.mod_lt _ (by decide)⟩
          · exact ih _ x hx
        · rename_i h _
          rcases decodeRune_cases b s hb with e | ⟨c, q, h1, h2, h3, h4⟩
          · rw [e] at h; exact absurd ⟨rfl, rfl⟩ h
          · rw [h4, h3] at hx
            simp only [List.take_left, List.drop_left, List.mem_append] at hx
            rcases hx with hx | hx
            · exact plain_high x (utf8_high c h1 h2 x hx)
            · exact ih _ x hx

theorem plain_quote (s : Bytes) : ∀ b ∈ quote s, Plain b := by
  intro b hb
  simp only [quote, List.mem_cons, List.mem_append, List.not_mem_nil, or_false] at hb
  rcases hb with rfl | hb | rfl
  · decide
  · exact plain_body _ _ b hb
  · decide

theorem plain_commas (l : List Bytes) (h : ∀ x ∈ l, ∀ b ∈ x, Plain b) : ∀ b ∈ commas l, Plain b := by
  induction l with
  | nil => simp [commas]
  | cons x l ih => match l with
    | [] => simpa [commas] using h
    | y :: l =>
      intro b hb
      simp only [commas, List.mem_append, List.mem_cons] at hb
      rcases hb with hb | rfl | hb
      · exact h x (by simp) b hb
      · decide
      · exact ih (fun z hz => h z (by simp at hz ⊢; tauto)) b hb

theorem plain_digits (f n : Nat) : ∀ b ∈ digits f n, Plain b := by
  have key : ∀ m, m < 10 → Plain (UInt8.ofNat (48 + m)) := by decide +kernel
  induction f generalizing n with
  | zero => simp [digits]
  | succ f ih =>
    intro b hb
    rw [digits] at hb
    split at hb
    · rename_i h
      rw [List.mem_singleton] at hb; subst hb; exact key n h
    · rw [List.mem_append, List.mem_singleton] at hb
      rcases hb with hb | rfl
      · exact ih _ b hb
      · exact key _ (by omega)

theorem plain_encode (t : Ty) (v : Val t) : ∀ b ∈ jsonEncode t v, Plain b := by
  induction t with
  | bool => cases v <;> decide
  | int =>
    intro b hb
    simp only [jsonEncode, itoa] at hb
    split at hb
    · rw [List.mem_cons] at hb
      rcases hb with rfl | hb
      · decide
      · exact plain_digits _ _ b hb
    · exact plain_digits _ _ b hb
  | str => exact plain_quote v
  | list t ih =>
    match v with
    | none =>
      show ∀ b ∈ ([110, 117, 108, 108] : Bytes), Plain b
      decide
    | some l =>
      intro b hb
      simp only [jsonEncode, List.mem_cons, List.mem_append, List.not_mem_nil, or_false] at hb
      rcases hb with rfl | hb | rfl
      · decide
      · refine plain_commas _ ?_ b hb
        intro x hx
        obtain ⟨y, _, rfl⟩ := List.mem_map.1 hx
        exact ih y
      · decide
  | map t ih =>
    match v with
    | none =>
      show ∀ b ∈ ([110, 117, 108, 108] : Bytes), Plain b
      decide
    | some l =>
      intro b hb
      simp only [jsonEncode, List.mem_cons, List.mem_append, List.not_mem_nil, or_false] at hb
      rcases hb with rfl | hb | rfl
      · decide
      · refine plain_commas _ ?_ b hb
        intro x hx
        obtain ⟨y, _, rfl⟩ := List.mem_map.1 hx
        intro b hb
        rw [List.mem_append, List.mem_cons] at hb
        rcases hb with hb | rfl | hb
        · exact plain_quote _ b hb
        · decide
        · exact ih _ b hb
      · decide

/-! ## The document is a text -/

theorem text_append {a b : Bytes} (ha : Text a) (hb : Text b) : Text (a ++ b) := by
  induction ha with
  | nil => exact hb
  | cons c s hc _ ih => rw [List.append_assoc]; exact .cons c _ hc ih

theorem text_cons (b : UInt8) (s : Bytes) (h : b < 128) (hs : Text s) : Text (b :: s) := by
  have := Text.cons b.toNat s (utf8_ascii b h).1 hs
  rwa [(utf8_ascii b h).2] at this

theorem text_ascii (s : Bytes) (h : ∀ b ∈ s, b < 128) : Text s := by
  induction s with
  | nil => exact .nil
  | cons b s ih => exact text_cons b s (h b (by simp)) (ih fun b hb => h b (by simp [hb]))

theorem escape_ascii (b : UInt8) (hb : b < 128) : ∀ x ∈ escape b, x < 128 := by
  revert hb; revert b
  exact all8 (by decide +kernel)

theorem hex_ascii : ∀ i : Fin 16, hex i.val < 128 := by decide +kernel

theorem text_body (f : Nat) (s : Bytes) : Text (body f s) := by
  induction f generalizing s with
  | zero => exact .nil
  | succ f ih => match s with
    | [] => exact .nil
    | b :: s =>
      by_cases hb : b < 128
      · simp only [body, if_pos hb]
        refine text_append (text_ascii _ ?_) (ih s)
        split
        · simpa using hb
        · exact escape_ascii b hb
      · simp only [body, if_neg hb]
        split
        · exact text_append (text_ascii _ (by decide)) (ih _)
        split
        · refine text_append (text_ascii _ ?_) (ih _)
          intro x hx
          simp only [List.mem_cons, List.not_mem_nil, or_false] at hx
          rcases hx with rfl | rfl | rfl | rfl | rfl | rfl
          · decide
          · decide
          · decide
          · decide
          · decide
          · exact hex_ascii ⟨_, Nat.mod_lt _ (by decide)⟩
        · rename_i h _
          rcases decodeRune_cases b s hb with e | ⟨c, q, h1, h2, h3, h4⟩
          · rw [e] at h; exact absurd ⟨rfl, rfl⟩ h
          · rw [h4, h3]
            simp only [List.take_left, List.drop_left]
            exact .cons c _ h1 (ih _)

theorem text_quote (s : Bytes) : Text (quote s) :=
  text_cons _ _ (by decide) (text_append (text_body _ _) (text_ascii _ (by decide)))

theorem text_commas (l : List Bytes) (h : ∀ x ∈ l, Text x) : Text (commas l) := by
  induction l with
  | nil => exact .nil
  | cons x l ih => match l with
    | [] => simpa [commas] using h
    | y :: l =>
      rw [commas]
      exact text_append (h x (by simp)) (text_cons _ _ (by decide) (ih fun z hz => h z (by simp at hz ⊢; tauto)))

theorem text_digits (f n : Nat) : Text (digits f n) := by
  have key : ∀ m, m < 10 → UInt8.ofNat (48 + m) < 128 := by decide +kernel
  induction f generalizing n with
  | zero => exact .nil
  | succ f ih =>
    rw [digits]
    split
    · rename_i h
      exact text_cons _ _ (key n h) .nil
    · exact text_append (ih _) (text_cons _ _ (key _ (by omega)) .nil)

theorem text_encode (t : Ty) (v : Val t) : Text (jsonEncode t v) := by
  induction t with
  | bool => exact text_ascii _ (by cases v <;> decide)
  | int =>
    simp only [jsonEncode, itoa]
    split
    · exact text_cons _ _ (by decide) (text_digits _ _)
    · exact text_digits _ _
  | str => exact text_quote v
  | list t ih =>
    match v with
    | none => exact text_ascii [110, 117, 108, 108] (by decide)
    | some l =>
      refine text_cons _ _ (by decide) (text_append (text_commas _ ?_) (text_ascii _ (by decide)))
      intro x hx
      obtain ⟨y, _, rfl⟩ := List.mem_map.1 hx
      exact ih y
  | map t ih =>
    match v with
    | none => exact text_ascii [110, 117, 108, 108] (by decide)
    | some l =>
      refine text_cons _ _ (by decide) (text_append (text_commas _ ?_) (text_ascii _ (by decide)))
      intro x hx
      obtain ⟨y, _, rfl⟩ := List.mem_map.1 hx
      exact text_append (text_quote _) (text_cons _ _ (by decide) (ih _))

end Gofer.Json
