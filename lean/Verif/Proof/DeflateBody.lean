import Verif.Proof.DeflateCode
/-!
# The body of a compressed block
-/
namespace Gofer.Inflate
open Gofer.Spec.Deflate

/-- `f` reads the symbols with the code lengths `l`. -/
def Reads (f : Bits → Option (Nat × Bits)) (l : List Nat) : Prop := ∀ b s r, f b = some (s, r) ↔ ∃ c, Code l s c ∧ b = c ++ r

theorem reads_init {l : List Nat} {h : Huff} (hi : init l = some h) (hd : Decodes h l) : Reads (huffSym h) l := by
  intro b s r
  rw [huffSym_iff hd]
  constructor
  · exact fun h => h.2
  · rintro ⟨c, hc, rfl⟩
    refine ⟨?_, c, hc, rfl⟩
    have := init_min hi s c hc
    simp
    omega

/-! ## Copying -/

theorem copy_spec (o : Bytes) (d n : Nat) (h0 : 0 < d) (hd : d ≤ o.length) : Copied o n d (copy o d n) := by
  induction n generalizing o with
  | zero => exact ⟨List.prefix_refl _, rfl, by intro i h1 h2; simp only [copy] at h2; omega⟩
  | succ n ih =>
    obtain ⟨h1, h2, h3⟩ := ih (o ++ [(o[o.length - d]?).getD 0]) (by simp; omega)
    refine ⟨(List.prefix_append _ _).trans h1, by rw [copy, h2]; simp; omega, ?_⟩
    intro i hi1 hi2
    rw [copy] at hi2 ⊢
    by_cases hi : i = o.length
    · subst hi
      have k : o <+: copy (o ++ [(o[o.length - d]?).getD 0]) d n := (List.prefix_append _ _).trans h1
      obtain ⟨t, ht⟩ := h1
      obtain ⟨t', ht'⟩ := k
      have e1 : (copy (o ++ [(o[o.length - d]?).getD 0]) d n)[o.length]? = some ((o[o.length - d]?).getD 0) := by
        rw [← ht, List.append_assoc, List.getElem?_append_right (le_refl _)]
        simp
      have e2 : (copy (o ++ [(o[o.length - d]?).getD 0]) d n)[o.length - d]? = o[o.length - d]? := by
        rw [← ht', List.getElem?_append_left (by omega)]
      rw [e1, e2, List.getElem?_eq_getElem (by omega)]
      rfl
    · exact h3 i (by simp; omega) hi2

theorem copied_unique {o o₁ o₂ : Bytes} {n d : Nat} (h0 : 0 < d) (hd : d ≤ o.length) (h1 : Copied o n d o₁) (h2 : Copied o n d o₂) : o₁ = o₂ := by
  obtain ⟨⟨t, rfl⟩, a2, a3⟩ := h1
  obtain ⟨⟨u, rfl⟩, b2, b3⟩ := h2
  apply List.ext_getElem?
  intro i
  induction i using Nat.strong_induction_on with
  | _ i ih =>
    by_cases h1 : i < o.length
    · rw [List.getElem?_append_left h1, List.getElem?_append_left h1]
    · by_cases h2 : i < (o ++ t).length
      · rw [a3 i (by omega) h2, b3 i (by omega) (by omega)]
        exact ih _ (by omega)
      · rw [List.getElem?_eq_none (by omega), List.getElem?_eq_none (by omega)]

theorem copied_iff (o o' : Bytes) (n d : Nat) (h0 : 0 < d) (hd : d ≤ o.length) : Copied o n d o' ↔ o' = copy o d n :=
  ⟨fun h => copied_unique h0 hd h (copy_spec o d n h0 hd), fun h => h ▸ copy_spec o d n h0 hd⟩

/-! ## The tables of lengths and distances -/

theorem lenOf_base (v : Nat) : lenOf (257 + v) = lenBase[v]? := by
  by_cases h : v < 29
  · revert v
    decide
  · rw [List.getElem?_eq_none (by simp [lenBase]; omega)]
    unfold lenOf
    rw [if_neg (by omega), if_neg (by omega), if_neg (by omega), if_neg (by omega), if_neg (by omega), if_neg (by omega), if_neg (by omega)]

theorem dist_table : ∀ w < 30, 4 ≤ w → distBase[w]? = some (2 ^ ((w - 2) / 2 + 1) + 1 + w % 2 * 2 ^ ((w - 2) / 2), (w - 2) / 2) := by decide

theorem dist_small : ∀ w < 4, distBase[w]? = some (w + 1, 0) := by decide

theorem dist_pos : ∀ w < 30, ∀ p, distBase[w]? = some p → 0 < p.1 := by decide

theorem len_bound : ∀ v < 29, ∀ p, lenBase[v]? = some p → p.1 + 2 ^ p.2 ≤ 259 := by decide

theorem distOf_iff (w : Nat) (b : Bits) (d : Nat) (r : Bits) :
    distOf w b = some (d, r) ↔ ∃ m y f, distBase[w]? = some (m, y) ∧ f.length = y ∧ b = f ++ r ∧ d = m + low f := by
  unfold distOf
  by_cases h4 : w < 4
  · rw [if_pos h4]
    constructor
    · intro h
      simp only [Option.some.injEq, Prod.mk.injEq] at h
      exact ⟨w + 1, 0, [], dist_small w h4, rfl, by simp [h.2], by simp [low, h.1]⟩
    · rintro ⟨m, y, f, h1, h2, rfl, rfl⟩
      rw [dist_small w h4] at h1
      simp only [Option.some.injEq, Prod.mk.injEq] at h1
      obtain ⟨rfl, rfl⟩ := h1
      have : f = [] := List.eq_nil_of_length_eq_zero h2
      subst this
      simp [low]
  · rw [if_neg h4]
    by_cases h30 : w < 30
    · rw [if_pos h30]
      have ht := dist_table w h30 (by omega)
      simp only []
      constructor
      · intro h
        cases hk : take ((w - 2) / 2) b with
        | none => rw [hk] at h; simp at h
        | some p =>
          rw [hk] at h
          simp only [Option.some.injEq, Prod.mk.injEq] at h
          obtain ⟨e, h1, h2, h3⟩ := (take_iff _ _ p.1 p.2).1 hk
          exact ⟨_, _, e, ht, h1, by rw [← h.2]; exact h2, by rw [← h.1, h3]; omega⟩
      · rintro ⟨m, y, f, h1, h2, h3, rfl⟩
        rw [ht] at h1
        simp only [Option.some.injEq, Prod.mk.injEq] at h1
        obtain ⟨rfl, rfl⟩ := h1
        rw [(take_iff _ _ (low f) r).2 ⟨f, h2, h3, rfl⟩]
        simp only [Option.some.injEq, Prod.mk.injEq, and_true]
        omega
    · rw [if_neg h30]
      constructor
      · intro h; simp at h
      · rintro ⟨m, y, f, h1, _⟩
        rw [List.getElem?_eq_none (by simp [distBase]; omega)] at h1
        simp at h1

/-! ## The body -/

theorem body_long {L D : List Nat} {o o' : Bytes} {b : Bits} (h : Body L D o b o') (n : Nat) (hn : L[256]? = some n) : n ≤ b.length := by
  induction h with
  | stop o c hc =>
    obtain ⟨m, h1, _, h3, _⟩ := hc
    rw [h1] at hn
    cases hn
    omega
  | lit => simp only [List.length_append]; omega
  | copy => simp only [List.length_append]; omega

/-- What is read at least is not more than there is. -/
def Fair (hl : Huff) (L : List Nat) : Prop := ∀ n, L[256]? = some n → hl.min ≤ n ∨ ∀ s c, Code L s c → hl.min ≤ c.length

theorem body_has {L D : List Nat} {o o' : Bytes} {b : Bits} (h : Body L D o b o') : ∃ n, L[256]? = some n := by
  induction h with
  | stop o c hc =>
    obtain ⟨m, h1, _⟩ := hc
    exact ⟨m, h1⟩
  | lit _ _ _ _ _ _ _ ih => exact ih
  | copy _ _ _ _ _ _ _ _ _ _ _ _ _ _ _ _ _ _ _ _ _ _ _ ih => exact ih

theorem body_read {L D : List Nat} {hl : Huff} {hd : Option Huff} (hL : Decodes hl L) (hm : Fair hl L) (hD : Reads (distSym hd) D) {o o' : Bytes} {b : Bits}
    (h : Body L D o b o') (r : Bits) (fuel : Nat) (hf : b.length < fuel) : body hl hd fuel o (b ++ r) = (o', some r) := by
  obtain ⟨n, hn⟩ := body_has h
  have sym : ∀ (s : Nat) (c t : Bits), Code L s c → n ≤ (c ++ t).length → huffSym hl (c ++ t) = some (s, t) := by
    intro s c t hc hlen
    rw [huffSym_iff hL]
    refine ⟨?_, c, hc, rfl⟩
    rcases hm n hn with h | h
    · omega
    · have := h s c hc
      simp
      omega
  induction h generalizing fuel with
  | stop o c hc =>
    obtain ⟨fuel, rfl⟩ : ∃ f, fuel = f + 1 := ⟨fuel - 1, by omega⟩
    have := body_long (D := D) (.stop o c hc) n hn
    rw [body, sym 256 c r hc (by simp; omega)]
    simp
  | lit o o' c t b hc hb ih =>
    obtain ⟨fuel, rfl⟩ : ∃ f, fuel = f + 1 := ⟨fuel - 1, by omega⟩
    have := body_long hb n hn
    have hpos : 0 < c.length := by obtain ⟨_, _, h2, h3, _⟩ := hc; omega
    rw [body, List.append_assoc, sym b.toNat c (t ++ r) hc (by simp; omega)]
    simp only []
    rw [if_pos (UInt8.toNat_lt b), UInt8.ofNat_toNat]
    exact ih fuel (by simp at hf; omega)
  | copy o o₁ o' c e d f t v w n' x m y hc hlen he hdc hdist hf' hle hcopy hb ih =>
    obtain ⟨fuel, rfl⟩ : ∃ f, fuel = f + 1 := ⟨fuel - 1, by omega⟩
    have := body_long hb n hn
    have hpos : 0 < c.length := by obtain ⟨_, _, h2, h3, _⟩ := hc; omega
    have hw : w < 30 := by
      have := (List.getElem?_eq_some_iff.1 hdist).1
      simpa [distBase] using this
    have hm0 := dist_pos w hw _ hdist
    have eb : c ++ (e ++ (d ++ (f ++ t))) ++ r = c ++ (e ++ (d ++ (f ++ (t ++ r)))) := by simp
    rw [body, eb, sym (257 + v) c _ hc (by simp; omega)]
    simp only []
    rw [if_neg (by omega), if_neg (by omega), lenOf_base, hlen]
    simp only []
    rw [(take_iff x _ (low e) (d ++ (f ++ (t ++ r)))).2 ⟨e, he, rfl, rfl⟩]
    simp only []
    rw [(hD _ w (f ++ (t ++ r))).2 ⟨d, hdc, rfl⟩]
    simp only []
    rw [(distOf_iff w _ (m + low f) (t ++ r)).2 ⟨m, y, f, hdist, hf', rfl, rfl⟩]
    simp only []
    rw [if_neg (by omega), ← (copied_iff o o₁ _ _ (by simp only [] at hm0; omega) hle).1 hcopy]
    exact ih fuel (by simp at hf; omega)

theorem body_sound {L D : List Nat} {hl : Huff} {hd : Option Huff} (hL : Decodes hl L) (hD : Reads (distSym hd) D) (fuel : Nat) (o o' : Bytes) (b r : Bits)
    (h : body hl hd fuel o b = (o', some r)) : ∃ b', b = b' ++ r ∧ Body L D o b' o' := by
  induction fuel generalizing o b with
  | zero => simp [body] at h
  | succ fuel ih =>
    rw [body] at h
    cases h1 : huffSym hl b with
    | none => rw [h1] at h; simp at h
    | some p =>
      obtain ⟨v, b1⟩ := p
      rw [h1] at h
      simp only [] at h
      obtain ⟨_, c, hc, rfl⟩ := (huffSym_iff hL b v b1).1 h1
      by_cases hv : v < 256
      · rw [if_pos hv] at h
        obtain ⟨b', rfl, hb⟩ := ih _ _ h
        refine ⟨c ++ b', by simp, .lit o o' c b' (UInt8.ofNat v) ?_ hb⟩
        rw [UInt8.toNat_ofNat_of_lt' hv]
        exact hc
      · rw [if_neg hv] at h
        by_cases hv' : v = 256
        · rw [if_pos hv'] at h
          simp only [Prod.mk.injEq, Option.some.injEq] at h
          obtain ⟨rfl, rfl⟩ := h
          subst hv'
          exact ⟨c, rfl, .stop o c hc⟩
        · rw [if_neg hv'] at h
          obtain ⟨k, rfl⟩ : ∃ k, v = 257 + k := ⟨v - 257, by omega⟩
          rw [lenOf_base] at h
          cases h2 : lenBase[k]? with
          | none => rw [h2] at h; simp at h
          | some p =>
            obtain ⟨n, x⟩ := p
            rw [h2] at h
            simp only [] at h
            cases h3 : take x b1 with
            | none => rw [h3] at h; simp at h
            | some p =>
              obtain ⟨y, b2⟩ := p
              rw [h3] at h
              simp only [] at h
              obtain ⟨e, he, rfl, rfl⟩ := (take_iff _ _ _ _).1 h3
              cases h4 : distSym hd b2 with
              | none => rw [h4] at h; simp at h
              | some p =>
                obtain ⟨w, b3⟩ := p
                rw [h4] at h
                simp only [] at h
                obtain ⟨d, hdc, rfl⟩ := (hD _ _ _).1 h4
                cases h5 : distOf w b3 with
                | none => rw [h5] at h; simp at h
                | some p =>
                  obtain ⟨dist, b4⟩ := p
                  rw [h5] at h
                  simp only [] at h
                  obtain ⟨m, y, f, hdist, hf, rfl, rfl⟩ := (distOf_iff _ _ _ _).1 h5
                  by_cases hle : m + low f > o.length
                  · rw [if_pos hle] at h; simp at h
                  · rw [if_neg hle] at h
                    obtain ⟨b', rfl, hb⟩ := ih _ _ h
                    have hw : w < 30 := by
                      have := (List.getElem?_eq_some_iff.1 hdist).1
                      simpa [distBase] using this
                    have hm0 := dist_pos w hw _ hdist
                    refine ⟨c ++ (e ++ (d ++ (f ++ b'))), by simp, .copy o _ o' c e d f b' k w n x m y hc h2 he hdc hdist hf (by omega)
                      (copy_spec o _ _ (by simp only [] at hm0; omega) (by omega)) hb⟩

/-! ## The fixed codes -/

theorem reads_fixedD : Reads (distSym none) fixedD := by
  have hcode : ∀ s c, Code fixedD s c ↔ c.length = 5 ∧ s = high c := by
    intro s c
    have hf : first fixedD 5 = 0 := by decide
    constructor
    · rintro ⟨n, h1, h2, h3, h4⟩
      have hs : s < 32 := by
        have := (List.getElem?_eq_some_iff.1 h1).1
        simpa [fixedD] using this
      have hn : n = 5 := by
        have := List.mem_of_getElem? h1
        simp [fixedD] at this
        exact this
      subst hn
      rw [hf] at h4
      simp only [fixedD, List.take_replicate, List.count_replicate_self] at h4
      refine ⟨h3, ?_⟩
      rw [h4]
      omega
    · rintro ⟨h1, rfl⟩
      have hlt := high_lt c
      rw [h1] at hlt
      refine ⟨5, ?_, by decide, h1, ?_⟩
      · unfold fixedD
        rw [List.getElem?_replicate, if_pos (by omega)]
      · rw [hf]
        simp only [fixedD, List.take_replicate, List.count_replicate_self]
        omega
  intro b s r
  unfold distSym
  simp only []
  by_cases h : b.length < 5
  · rw [if_pos h]
    constructor
    · intro h; simp at h
    · rintro ⟨c, hc, rfl⟩
      have := ((hcode s c).1 hc).1
      simp at h
      omega
  · rw [if_neg h]
    simp only [Option.some.injEq, Prod.mk.injEq]
    constructor
    · rintro ⟨h1, h2⟩
      refine ⟨b.take 5, (hcode _ _).2 ⟨by simp; omega, h1.symm⟩, ?_⟩
      rw [← h2, List.take_append_drop]
    · rintro ⟨c, hc, rfl⟩
      obtain ⟨h1, h2⟩ := (hcode s c).1 hc
      rw [← h1, List.take_left', List.drop_left']
      · exact ⟨h2.symm, rfl⟩
      · rfl
      · rfl

theorem coding_fixedL : Coding fixedL := by
  refine ⟨?_, .inl ?_⟩
  · decide +kernel
  · decide +kernel

theorem fixedHuff_ok : ∃ h, fixedHuff = some h ∧ Decodes h fixedL ∧ Fair h fixedL := by
  obtain ⟨h, h1, h2⟩ := init_tree coding_fixedL
  refine ⟨h, h1, h2, ?_⟩
  intro n _
  exact .inr fun s c hc => init_min h1 s c hc

end Gofer.Inflate
