import Verif.Proof.Base58

/-! # Base58: properties C01 - C03 -/
namespace Gofer.Props.Base58
open Gofer.Base58 Gofer.Spec.Base58

/-- C01. Decoding an encoding returns the value, for every `uint64`. -/
theorem C01_base58_roundtrip (v : UInt64) : decodeForInt64 (encodeForInt64 v) = (v, true) := by
  have h := decodeLoop_text (digs v.toNat) (digs_lt _) 0
  have hv := value_digs v.toNat
  unfold value at hv
  rw [hv] at h
  simp only [decodeForInt64, encode_eq]
  simpa using h

/-- C01/C02. Two different values never share an encoding. -/
theorem C02_base58_injective (v w : UInt64) (h : encodeForInt64 v = encodeForInt64 w) : v = w := by
  have h1 := C01_base58_roundtrip v
  rw [h, C01_base58_roundtrip w] at h1
  simpa using h1.symm

/-- C02. The encoding is the base-58 numeral of the value: it is the text of digits whose positional
value is `v`, with no leading zero digit. -/
theorem C02_base58_denotes (v : UInt64) :
    ∃ ds, IsText ds (encodeForInt64 v) ∧ value ds = v.toNat ∧ ds.head? ≠ some 0 :=
  ⟨digs v.toNat, (isText_iff _ _).2 ⟨digs_lt _, (encode_eq v).symm⟩, value_digs _, digs_head _⟩

/-- C02. Only alphabet bytes, no leading `'1'` (byte 49), empty exactly for 0, at most 11 bytes. -/
theorem C02_base58_canonical (v : UInt64) :
    (∀ b ∈ encodeForInt64 v, b ∈ alphabet) ∧ (encodeForInt64 v).head? ≠ some 49 ∧
    (encodeForInt64 v = [] ↔ v = 0) ∧ (encodeForInt64 v).length ≤ 11 := by
  rw [encode_eq, ← alphabet_eq]
  have hlt := digs_lt v.toNat
  have hh := digs_head v.toNat
  refine ⟨?_, ?_, ?_, ?_⟩
  · intro b hb
    simp only [txt, List.mem_map] at hb
    obtain ⟨d, hd, rfl⟩ := hb
    have := hlt d hd
    rw [← alphabet_length] at this
    simp [List.getD_eq_getElem?_getD, List.getElem?_eq_getElem this]
  · cases hd : digs v.toNat with
    | nil => simp [txt]
    | cons a l =>
      rw [hd] at hh hlt
      have ha : a < 58 := hlt a (by simp)
      have : ∀ a < 58, b58Alphabet.getD a 0 = 49 → a = 0 := by decide +kernel
      intro h
      simp only [txt, List.map_cons, List.head?_cons, Option.some.injEq] at h
      exact hh (by simp [this a ha h])
  · constructor
    · intro h
      have : digs v.toNat = [] := by simpa [txt] using h
      have := digs_eq_nil.1 this
      exact UInt64.toNat_inj.1 (by simpa using this)
    · rintro rfl; simp [digs_zero, txt]
  · by_contra hc
    rw [txt_length] at hc
    have h1 := le_value (digs v.toNat) (by intro h; rw [h] at hc; simp at hc) hh
    rw [value_digs] at h1
    have h2 : 58 ^ 11 ≤ 58 ^ ((digs v.toNat).length - 1) := Nat.pow_le_pow_right (by omega) (by omega)
    have h3 := v.toNat_lt
    have : (2:Nat) ^ 64 < 58 ^ 11 := by decide
    omega

/-- The length bound 11 is attained by the largest `uint64`. -/
example : (encodeForInt64 (0xFFFFFFFFFFFFFFFF)).length = 11 := by
  simp only [encode_eq, txt_length]; decide +kernel

/-- C02. Numeric order is the short-lexicographic byte order of the encodings. -/
theorem C02_base58_order (v w : UInt64) :
    v < w ↔ ShortLexLt (encodeForInt64 v) (encodeForInt64 w) := by
  have key : ∀ v w : UInt64, v < w → ShortLexLt (encodeForInt64 v) (encodeForInt64 w) := by
    intro v w h
    rw [UInt64.lt_iff_toNat_lt] at h
    unfold ShortLexLt
    simp only [encode_eq, txt_length]
    rcases Nat.lt_trichotomy (digs v.toNat).length (digs w.toNat).length with hh | hh | hh
    · exact Or.inl hh
    · exact Or.inr ⟨hh, lex_of_value _ _ (digs_lt _) (digs_lt _) hh (by rw [value_digs, value_digs]; exact h)⟩
    · have := length_eq_of_value _ _ (digs_lt w.toNat) (digs_lt v.toNat) (digs_head _) (digs_head _) hh
      rw [value_digs, value_digs] at this; omega
  refine ⟨key v w, fun h => ?_⟩
  by_contra hn
  have hle : w ≤ v := UInt64.not_lt.1 hn
  rcases UInt64.lt_or_eq_of_le hle with h2 | h2
  · have h3 := key w v h2
    rcases h with h | ⟨h, h'⟩ <;> rcases h3 with h3 | ⟨h3, h3'⟩
    · omega
    · omega
    · omega
    · exact lex_asymm _ _ h' h3'
  · subst h2
    rcases h with h | ⟨_, h⟩
    · omega
    · exact lex_irrefl _ h

/-- C03. `DecodeForInt64` succeeds exactly on strings over the alphabet. -/
theorem C03_base58_accepts (bs : List UInt8) :
    (decodeForInt64 bs).2 = true ↔ ∀ b ∈ bs, b ∈ alphabet := by
  rw [← alphabet_eq]
  constructor
  · intro h
    by_contra hc
    have hc' : ∃ b ∈ bs, b ∉ b58Alphabet := by simpa using hc
    rw [decodeForInt64, decodeLoop_bad _ _ hc'] at h
    simp at h
  · intro h
    obtain ⟨ds, h1, rfl⟩ := exists_digits bs h
    have := decodeLoop_text ds h1 0
    simp only [decodeForInt64]
    rw [show (0 : UInt64) = UInt64.ofNat 0 from rfl, this]

/-- C03. On text of digits `ds` the result is the positional value modulo `2^64`. -/
theorem C03_base58_value (ds : List Nat) (bs : List UInt8) (h : IsText ds bs) :
    (decodeForInt64 bs).1.toNat = value ds % 2 ^ 64 := by
  obtain ⟨h1, rfl⟩ := (isText_iff _ _).1 h
  have := decodeLoop_text ds h1 0
  simp only [decodeForInt64]
  rw [show (0 : UInt64) = UInt64.ofNat 0 from rfl, this]
  simp [value, UInt64.toNat_ofNat']

/-- C03. A rejected string gives the value 0. -/
theorem C03_base58_reject (bs : List UInt8) (h : ∃ b ∈ bs, b ∉ alphabet) :
    decodeForInt64 bs = (0, false) := by
  rw [← alphabet_eq] at h
  exact decodeLoop_bad bs 0 h

/-- C03. Re-encoding what was decoded gives the same text exactly when the text has no leading zero
digit and its value fits in 64 bits. -/
theorem C03_base58_reencode (ds : List Nat) (bs : List UInt8) (h : IsText ds bs) :
    encodeForInt64 (decodeForInt64 bs).1 = bs ↔ (ds.head? ≠ some 0 ∧ value ds < 2 ^ 64) := by
  have hv := C03_base58_value ds bs h
  obtain ⟨h1, rfl⟩ := (isText_iff _ _).1 h
  rw [encode_eq, hv]
  constructor
  · intro he
    have hl : (digs (value ds % 2 ^ 64)).length = ds.length := by
      have := congrArg List.length he; simpa [txt_length] using this
    have inj : ∀ a b : List Nat, (∀ d ∈ a, d < 58) → (∀ d ∈ b, d < 58) → txt a = txt b → a = b := by
      intro a
      induction a with
      | nil => intro b _ _ h; cases b <;> simp_all [txt]
      | cons x xs ih =>
        intro b ha hb h
        cases b with
        | nil => simp [txt] at h
        | cons y ys =>
          simp only [txt, List.map_cons, List.cons.injEq] at h
          have hx := idxOf_getD (ha x (by simp))
          rw [h.1, idxOf_getD (hb y (by simp))] at hx
          rw [ih ys (fun d hd => ha d (by simp [hd])) (fun d hd => hb d (by simp [hd])) h.2]
          simpa using hx.symm
    have hds := inj _ _ (digs_lt _) h1 he
    constructor
    · rw [← hds]; exact digs_head _
    · have h2 := value_digs (value ds % 2 ^ 64)
      rw [hds] at h2
      omega
  · rintro ⟨h0, h2⟩
    rw [Nat.mod_eq_of_lt h2, digs_value ds h1 h0]

/-- Non-vacuity: "jpXCZedGfVQ" is the text of the digits of 2^64-1. -/
example : IsText [42,47,30,11,32,37,36,15,38,28,23] [106,112,88,67,90,101,100,71,102,86,81] := by
  unfold IsText; decide +kernel

/-- C03. The wrap-around is real: two different texts without leading zeros decode to the same value. -/
theorem C03_base58_overflow_wraps :
    ∃ a b : List UInt8, a ≠ b ∧ a.head? ≠ some 49 ∧ b.head? ≠ some 49 ∧
      decodeForInt64 a = (0, true) ∧ decodeForInt64 b = (0, true) := by
  -- 2^64 = jpXCZedGfVR
  refine ⟨[], [106,112,88,67,90,101,100,71,102,86,82], by decide, by decide, by decide, by decide +kernel, ?_⟩
  decide +kernel

end Gofer.Props.Base58
