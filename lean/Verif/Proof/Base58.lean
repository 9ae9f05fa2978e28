import Verif.Spec.Base58
import Verif.Model.Base58
import Mathlib.Tactic.Ring
import Mathlib.Tactic.Linarith

/-! Helper lemmas for the base58 properties. -/
namespace Gofer.Base58

theorem alphabet_eq : b58Alphabet = Spec.Base58.alphabet := by decide +kernel

theorem alphabet_length : b58Alphabet.length = 58 := by decide

theorem alphabet_nodup : b58Alphabet.Nodup := by decide +kernel

theorem alphabet_sorted : b58Alphabet.Pairwise (· < ·) := by decide +kernel

/-- Big-endian digits. -/
def digs (n : Nat) : List Nat :=
  if _h : 0 < n then digs (n / 58) ++ [n % 58] else []
termination_by n
decreasing_by omega

theorem digs_zero : digs 0 = [] := by unfold digs; simp

theorem digs_pos {n : Nat} (h : 0 < n) : digs n = digs (n / 58) ++ [n % 58] := by
  rw [digs]; simp [h]

theorem digs_lt (n : Nat) : ∀ d ∈ digs n, d < 58 := by
  induction n using Nat.strongRecOn with
  | _ n ih =>
    by_cases h : 0 < n
    · rw [digs_pos h]
      intro d hd
      rcases List.mem_append.1 hd with hd | hd
      · exact ih _ (by omega) d hd
      · have : d = n % 58 := by simpa using hd
        omega
    · have : n = 0 := by omega
      subst this; simp [digs_zero]

open Spec.Base58 (value)

theorem value_append_singleton (ds : List Nat) (d : Nat) : value (ds ++ [d]) = value ds * 58 + d := by
  simp [value, List.foldl_append]

theorem value_digs (n : Nat) : value (digs n) = n := by
  induction n using Nat.strongRecOn with
  | _ n ih =>
    by_cases h : 0 < n
    · rw [digs_pos h, value_append_singleton, ih _ (by omega)]; omega
    · have : n = 0 := by omega
      subst this; simp [digs_zero, value]

theorem digs_head (n : Nat) : (digs n).head? ≠ some 0 := by
  induction n using Nat.strongRecOn with
  | _ n ih =>
    by_cases h : 0 < n
    · rw [digs_pos h]
      have h2 := ih (n / 58) (by omega)
      cases hd : digs (n / 58) with
      | nil =>
        by_cases h3 : 0 < n / 58
        · rw [digs_pos h3] at hd; simp at hd
        · simp; omega
      | cons a l => rw [hd] at h2; simpa using h2
    · have : n = 0 := by omega
      subst this; simp [digs_zero]

theorem digs_eq_nil {n : Nat} : digs n = [] ↔ n = 0 := by
  constructor
  · intro h
    by_contra hn
    rw [digs_pos (by omega)] at h; simp at h
  · rintro rfl; exact digs_zero

/-- Text of digits, in the model's alphabet. -/
def txt (ds : List Nat) : List UInt8 := ds.map fun d => b58Alphabet.getD d 0

theorem encodeLoop_eq (v : UInt64) (r : List UInt8) :
    encodeLoop v r = r ++ (txt (digs v.toNat)).reverse := by
  fun_induction encodeLoop v r with
  | case1 v r h ih =>
    have h' : 0 < v.toNat := by simpa [UInt64.lt_iff_toNat_lt] using h
    rw [ih, digs_pos h']
    simp [txt]
  | case2 v r h =>
    have h' : v.toNat = 0 := by
      have : ¬ 0 < v.toNat := by simpa [UInt64.lt_iff_toNat_lt] using h
      omega
    rw [h', digs_zero]; simp [txt]

theorem swapAt_length (bs : List UInt8) (i : Nat) : (swapAt bs i).length = bs.length := by
  simp [swapAt]

theorem reverse_aux (bs : List UInt8) (k : Nat) (hk : k ≤ bs.length / 2) :
    ((List.range k).foldl swapAt bs).length = bs.length ∧
    ∀ j, j < bs.length →
      ((List.range k).foldl swapAt bs).getD j 0 =
        if j < k ∨ bs.length - k ≤ j then bs.getD (bs.length - 1 - j) 0 else bs.getD j 0 := by
  induction k with
  | zero =>
    refine ⟨by simp, fun j hj => ?_⟩
    rw [if_neg (by omega)]; simp
  | succ k ih =>
    obtain ⟨hl, hg⟩ := ih (by omega)
    rw [List.range_succ, List.foldl_append]
    simp only [List.foldl_cons, List.foldl_nil]
    refine ⟨by rw [swapAt_length, hl], fun j hj => ?_⟩
    have hlen : ((List.range k).foldl swapAt bs).length = bs.length := hl
    generalize hx : (List.range k).foldl swapAt bs = xs at *
    unfold swapAt
    simp only [List.getD_eq_getElem?_getD, List.getElem?_set, List.length_set] at *
    rw [hlen]
    have h1 := hg k (by omega)
    have h2 := hg (bs.length - 1 - k) (by omega)
    have h3 := hg j hj
    rw [if_neg (by omega)] at h1 h2
    by_cases e1 : bs.length - 1 - k = j
    · rw [if_pos e1, if_pos (by omega), if_pos (by omega)]
      simp only [Option.getD_some, h1]
      congr 2; omega
    · rw [if_neg e1]
      by_cases e2 : k = j
      · rw [if_pos e2, if_pos (by omega), if_pos (by omega)]
        simp only [Option.getD_some, h2]
        congr 2; omega
      · rw [if_neg e2, h3]
        by_cases e3 : j < k ∨ bs.length - k ≤ j
        · rw [if_pos e3, if_pos (by omega)]
        · rw [if_neg e3, if_neg (by omega)]

theorem reverseBytes_eq (bs : List UInt8) : reverseBytes bs = bs.reverse := by
  obtain ⟨hl, hg⟩ := reverse_aux bs (bs.length / 2) (Nat.le_refl _)
  unfold reverseBytes
  apply List.ext_getElem
  · simp [hl]
  · intro j h1 h2
    have hj : j < bs.length := by rw [hl] at h1; exact h1
    have := hg j hj
    simp only [List.getD_eq_getElem?_getD, List.getElem?_eq_getElem h1, Option.getD_some] at this
    rw [this, List.getElem_reverse]
    have h4 : bs.length - 1 - j < bs.length := by omega
    split
    · simp [List.getElem?_eq_getElem h4]
    · have h3 : bs.length - 1 - j = j := by omega
      simp [List.getElem?_eq_getElem hj, h3]

theorem encode_eq (v : UInt64) : encodeForInt64 v = txt (digs v.toNat) := by
  simp [encodeForInt64, encodeLoop_eq, reverseBytes_eq]

theorem idxOf_getD {d : Nat} (hd : d < 58) : b58Alphabet.idxOf? (b58Alphabet.getD d 0) = some d := by
  have : ∀ d < 58, b58Alphabet.idxOf? (b58Alphabet.getD d 0) = some d := by decide +kernel
  exact this d hd

theorem idxOf_some {b : UInt8} {i : Nat} (h : b58Alphabet.idxOf? b = some i) :
    i < 58 ∧ b58Alphabet[i]? = some b := by
  obtain ⟨h1, h2, _⟩ := List.idxOf?_eq_some_iff.1 h
  exact ⟨by simpa [alphabet_length] using h1, by rw [List.getElem?_eq_getElem h1, h2]⟩

theorem idxOf_none {b : UInt8} : b58Alphabet.idxOf? b = none ↔ b ∉ b58Alphabet :=
  List.idxOf?_eq_none_iff

theorem ofNat_step (r : UInt64) (d : Nat) :
    UInt64.ofNat (r.toNat * 58 + d) = r * 58 + d.toUInt64 := by
  apply UInt64.toNat_inj.1
  simp [UInt64.toNat_ofNat', Nat.toUInt64]

theorem decodeLoop_text (ds : List Nat) (hds : ∀ d ∈ ds, d < 58) (n : Nat) :
    decodeLoop (txt ds) (UInt64.ofNat n) = (UInt64.ofNat (ds.foldl (fun a d => a * 58 + d) n), true) := by
  induction ds generalizing n with
  | nil => simp [txt, decodeLoop]
  | cons d ds ih =>
    have hd : d < 58 := hds d (by simp)
    have ih' := ih (fun x hx => hds x (by simp [hx])) (n * 58 + d)
    simp only [txt, List.map_cons, decodeLoop, idxOf_getD hd, List.foldl_cons] at *
    rw [← ih']
    congr 1
    apply UInt64.toNat_inj.1
    simp [UInt64.toNat_ofNat', Nat.toUInt64]

theorem decodeLoop_bad (bs : List UInt8) (r : UInt64) (h : ∃ b ∈ bs, b ∉ b58Alphabet) :
    decodeLoop bs r = (0, false) := by
  induction bs generalizing r with
  | nil => simp at h
  | cons b bs ih =>
    cases hb : b58Alphabet.idxOf? b with
    | none => simp [decodeLoop, hb]
    | some i =>
      obtain ⟨x, hx, hn⟩ := h
      have : x ≠ b := by
        rintro rfl
        exact hn (List.mem_of_getElem? (idxOf_some hb).2)
      simp only [decodeLoop, hb]
      exact ih _ ⟨x, by simpa [this] using hx, hn⟩

theorem exists_digits (bs : List UInt8) (h : ∀ b ∈ bs, b ∈ b58Alphabet) :
    ∃ ds : List Nat, (∀ d ∈ ds, d < 58) ∧ txt ds = bs := by
  induction bs with
  | nil => exact ⟨[], by simp, rfl⟩
  | cons b bs ih =>
    obtain ⟨ds, h1, h2⟩ := ih (fun x hx => h x (by simp [hx]))
    obtain ⟨i, hi, hb⟩ := List.mem_iff_getElem.1 (h b (by simp))
    refine ⟨i :: ds, ?_, ?_⟩
    · rw [alphabet_length] at hi
      simpa [hi] using h1
    · simp only [txt, List.map_cons, List.getD_eq_getElem?_getD, List.getElem?_eq_getElem hi,
        Option.getD_some, hb] at *
      rw [h2]

theorem isText_iff (ds : List Nat) (bs : List UInt8) :
    Spec.Base58.IsText ds bs ↔ (∀ d ∈ ds, d < 58) ∧ txt ds = bs := by
  unfold Spec.Base58.IsText
  rw [← alphabet_eq]
  induction ds generalizing bs with
  | nil => cases bs <;> simp [txt]
  | cons d ds ih =>
    cases bs with
    | nil => simp [txt]
    | cons b bs =>
      have := ih bs
      simp only [txt, List.map_cons, List.cons.injEq, List.mem_cons, forall_eq_or_imp] at *
      constructor
      · rintro ⟨h1, h2⟩
        obtain ⟨h3, h4⟩ := this.1 h2
        have hd : d < 58 := by
          have := (List.getElem?_eq_some_iff.1 h1).1
          rwa [alphabet_length] at this
        exact ⟨⟨hd, h3⟩, by simp [List.getD_eq_getElem?_getD, h1], h4⟩
      · rintro ⟨⟨h1, h2⟩, h3, h4⟩
        refine ⟨?_, this.2 ⟨h2, h4⟩⟩
        rw [← alphabet_length] at h1
        simpa [List.getD_eq_getElem?_getD, List.getElem?_eq_getElem h1] using h3

theorem foldl_value (ds : List Nat) (n : Nat) :
    ds.foldl (fun a d => a * 58 + d) n = n * 58 ^ ds.length + value ds := by
  induction ds generalizing n with
  | nil => simp [value]
  | cons d ds ih =>
    simp only [value, List.foldl_cons, List.length_cons] at *
    rw [ih (n * 58 + d), ih (0 * 58 + d)]
    ring

theorem value_cons (d : Nat) (ds : List Nat) : value (d :: ds) = d * 58 ^ ds.length + value ds := by
  simp only [value, List.foldl_cons]
  rw [foldl_value]; simp [value]

theorem value_lt (ds : List Nat) (h : ∀ d ∈ ds, d < 58) : value ds < 58 ^ ds.length := by
  induction ds with
  | nil => simp [value]
  | cons d ds ih =>
    rw [value_cons]
    have h1 := ih (fun x hx => h x (by simp [hx]))
    have h2 : d < 58 := h d (by simp)
    have h3 : d * 58 ^ ds.length ≤ 57 * 58 ^ ds.length := Nat.mul_le_mul_right _ (by omega)
    rw [List.length_cons, Nat.pow_succ]; omega

theorem le_value (ds : List Nat) (h : ds ≠ []) (h0 : ds.head? ≠ some 0) :
    58 ^ (ds.length - 1) ≤ value ds := by
  cases ds with
  | nil => simp at h
  | cons d ds =>
    rw [value_cons]
    have : 1 ≤ d := by
      rcases Nat.eq_zero_or_pos d with rfl | h
      · simp at h0
      · exact h
    have := Nat.mul_le_mul_right (58 ^ ds.length) this
    simp only [List.length_cons, Nat.add_sub_cancel]; omega

theorem digs_unique (a b : List Nat) (ha : ∀ d ∈ a, d < 58) (hb : ∀ d ∈ b, d < 58)
    (hl : a.length = b.length) (hv : value a = value b) : a = b := by
  induction a generalizing b with
  | nil => cases b <;> simp_all
  | cons x xs ih =>
    cases b with
    | nil => simp at hl
    | cons y ys =>
      simp only [List.length_cons, Nat.add_right_cancel_iff] at hl
      rw [value_cons, value_cons, hl] at hv
      have h1 := value_lt xs (fun d hd => ha d (by simp [hd]))
      have h2 := value_lt ys (fun d hd => hb d (by simp [hd]))
      rw [hl] at h1
      have hxy : x = y := by
        rcases Nat.lt_trichotomy x y with h | h | h
        · have := Nat.mul_le_mul_right (58 ^ ys.length) h
          rw [Nat.succ_mul] at this; omega
        · exact h
        · have := Nat.mul_le_mul_right (58 ^ ys.length) h
          rw [Nat.succ_mul] at this; omega
      subst hxy
      rw [ih ys (fun d hd => ha d (by simp [hd])) (fun d hd => hb d (by simp [hd])) hl (by omega)]

theorem length_eq_of_value (a b : List Nat) (ha : ∀ d ∈ a, d < 58) (hb : ∀ d ∈ b, d < 58)
    (_ha0 : a.head? ≠ some 0) (hb0 : b.head? ≠ some 0) :
    a.length < b.length → value a < value b := by
  intro h
  have h1 := value_lt a ha
  have h2 := le_value b (by rintro rfl; simp at h) hb0
  have : 58 ^ a.length ≤ 58 ^ (b.length - 1) := Nat.pow_le_pow_right (by omega) (by omega)
  omega

theorem digs_value (ds : List Nat) (h : ∀ d ∈ ds, d < 58) (h0 : ds.head? ≠ some 0) :
    digs (value ds) = ds := by
  have hv : value (digs (value ds)) = value ds := value_digs _
  have hl : (digs (value ds)).length = ds.length := by
    rcases Nat.lt_trichotomy (digs (value ds)).length ds.length with hh | hh | hh
    · have := length_eq_of_value _ _ (digs_lt _) h (digs_head _) h0 hh; omega
    · exact hh
    · have := length_eq_of_value _ _ h (digs_lt _) h0 (digs_head _) hh; omega
  exact digs_unique _ _ (digs_lt _) h hl hv

theorem getD_lt {c d : Nat} (hd : d < 58) (h : c < d) : b58Alphabet.getD c 0 < b58Alphabet.getD d 0 := by
  have h1 : d < b58Alphabet.length := by rw [alphabet_length]; exact hd
  have h2 : c < b58Alphabet.length := by omega
  have := List.pairwise_iff_getElem.1 alphabet_sorted c d h2 h1 h
  simpa [List.getD_eq_getElem?_getD, List.getElem?_eq_getElem h1, List.getElem?_eq_getElem h2] using this

theorem lex_of_value (a b : List Nat) (ha : ∀ d ∈ a, d < 58) (hb : ∀ d ∈ b, d < 58)
    (hl : a.length = b.length) (hv : value a < value b) : List.Lex (· < ·) (txt a) (txt b) := by
  induction a generalizing b with
  | nil => cases b <;> simp_all
  | cons x xs ih =>
    cases b with
    | nil => simp at hl
    | cons y ys =>
      simp only [List.length_cons, Nat.add_right_cancel_iff] at hl
      rw [value_cons, value_cons, hl] at hv
      have h1 := value_lt xs (fun d hd => ha d (by simp [hd]))
      have h2 := value_lt ys (fun d hd => hb d (by simp [hd]))
      rw [hl] at h1
      simp only [txt, List.map_cons]
      rcases Nat.lt_trichotomy x y with h | h | h
      · exact List.Lex.rel (getD_lt (hb y (by simp)) h)
      · subst h
        exact List.Lex.cons (ih ys (fun d hd => ha d (by simp [hd])) (fun d hd => hb d (by simp [hd])) hl (by omega))
      · have := Nat.mul_le_mul_right (58 ^ ys.length) h
        rw [Nat.succ_mul] at this; omega

theorem lex_irrefl (a : List UInt8) : ¬ List.Lex (· < ·) a a := by
  induction a with
  | nil => intro h; cases h
  | cons x xs ih =>
    intro h
    cases h with
    | rel h => exact absurd h (UInt8.lt_irrefl x)
    | cons h => exact ih h

theorem lex_asymm (a b : List UInt8) (h : List.Lex (· < ·) a b) : ¬ List.Lex (· < ·) b a := by
  induction h with
  | nil => intro h; cases h
  | rel h =>
    intro h2
    cases h2 with
    | rel h3 => exact absurd h3 (UInt8.lt_asymm h)
    | cons h3 => exact UInt8.lt_irrefl _ h
  | cons h ih =>
    intro h2
    cases h2 with
    | rel h3 => exact UInt8.lt_irrefl _ h3
    | cons h3 => exact ih h3

theorem txt_length (ds : List Nat) : (txt ds).length = ds.length := by simp [txt]

end Gofer.Base58
