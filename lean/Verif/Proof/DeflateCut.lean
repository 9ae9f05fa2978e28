import Verif.Proof.DeflateWrap
/-!
# Streams that are cut off, and how much data comes out
-/
namespace Gofer.Inflate
open Gofer.Spec.Deflate

/-- How many bits are left. -/
def left (q : Option Bits) : Nat := (q.map List.length).getD 0

/-- The data is the old data and more, at most 129 bytes for each bit. -/
def Grows (o : Bytes) (b : Bits) (x : Bytes × Option Bits) : Prop := o <+: x.1 ∧ x.1.length + 129 * left x.2 ≤ o.length + 129 * b.length

theorem grows_same (o : Bytes) (b : Bits) : Grows o b (o, none) := ⟨List.prefix_refl _, by simp [left]⟩

theorem grows_step {o o' : Bytes} {b b' : Bits} {x : Bytes × Option Bits} (h : Grows o' b' x) (hp : o <+: o') (hl : o'.length + 129 * b'.length ≤ o.length + 129 * b.length) : Grows o b x :=
  ⟨hp.trans h.1, le_trans h.2 hl⟩

theorem take_ext {n : Nat} {b r : Bits} {x : Nat} (h : take n b = some (x, r)) (c : Bits) : take n (b ++ c) = some (x, r ++ c) := by
  obtain ⟨e, h1, rfl, rfl⟩ := (take_iff _ _ _ _).1 h
  exact (take_iff _ _ _ _).2 ⟨e, h1, by simp, rfl⟩

theorem take_left {n : Nat} {b r : Bits} {x : Nat} (h : take n b = some (x, r)) : n + r.length = b.length ∧ x < 2 ^ n := by
  obtain ⟨e, h1, rfl, rfl⟩ := (take_iff _ _ _ _).1 h
  exact ⟨by simp; omega, h1 ▸ low_lt e⟩

theorem distOf_left {w : Nat} {b r : Bits} {d : Nat} (h : distOf w b = some (d, r)) : r.length ≤ b.length := by
  obtain ⟨m, y, f, _, _, rfl, _⟩ := (distOf_iff _ _ _ _).1 h
  simp

theorem distOf_ext {w : Nat} {b r : Bits} {d : Nat} (h : distOf w b = some (d, r)) (c : Bits) : distOf w (b ++ c) = some (d, r ++ c) := by
  obtain ⟨m, y, f, h1, h2, rfl, h4⟩ := (distOf_iff _ _ _ _).1 h
  exact (distOf_iff _ _ _ _).2 ⟨m, y, f, h1, h2, by simp, h4⟩

theorem reads_left {f : Bits → Option (Nat × Bits)} {l : List Nat} (hf : Reads f l) {b r : Bits} {s : Nat} (h : f b = some (s, r)) : r.length < b.length := by
  obtain ⟨c, ⟨n, _, h2, h3, _⟩, rfl⟩ := (hf _ _ _).1 h
  simp
  omega

theorem reads_ext {f : Bits → Option (Nat × Bits)} {l : List Nat} (hf : Reads f l) {b r : Bits} {s : Nat} (h : f b = some (s, r)) (c : Bits) : f (b ++ c) = some (s, r ++ c) := by
  obtain ⟨k, h1, rfl⟩ := (hf _ _ _).1 h
  exact (hf _ _ _).2 ⟨k, h1, by simp⟩

theorem huffSym_ext {h : Huff} {l : List Nat} (hd : Decodes h l) {b r : Bits} {s : Nat} (hs : huffSym h b = some (s, r)) (c : Bits) : huffSym h (b ++ c) = some (s, r ++ c) := by
  obtain ⟨h1, k, h2, rfl⟩ := (huffSym_iff hd _ _ _).1 hs
  exact (huffSym_iff hd _ _ _).2 ⟨by simp at h1 ⊢; omega, k, h2, by simp⟩

theorem lenOf_bound {v n x : Nat} (hv : ¬ v < 256) (h2 : v ≠ 256) (h : lenOf v = some (n, x)) (y : Nat) (hy : y < 2 ^ x) : n + y ≤ 258 := by
  obtain ⟨u, rfl⟩ : ∃ u, v = 257 + u := ⟨v - 257, by omega⟩
  rw [lenOf_base] at h
  have hu : u < 29 := by
    have := (List.getElem?_eq_some_iff.1 h).1
    simpa [lenBase] using this
  have := len_bound u hu _ h
  simp only [] at this
  omega

theorem copy_len (o : Bytes) (d n : Nat) : o <+: copy o d n ∧ (copy o d n).length = o.length + n := by
  induction n generalizing o with
  | zero => exact ⟨List.prefix_refl _, rfl⟩
  | succ n ih =>
    obtain ⟨h1, h2⟩ := ih (o ++ [(o[o.length - d]?).getD 0])
    rw [copy]
    refine ⟨(List.prefix_append _ _).trans h1, ?_⟩
    rw [h2]
    simp
    omega

theorem body_grows {L D : List Nat} {hl : Huff} {hd : Option Huff} (hL : Decodes hl L) (hD : Reads (distSym hd) D) (fuel : Nat) (o : Bytes) (b : Bits) :
    Grows o b (body hl hd fuel o b) := by
  induction fuel generalizing o b with
  | zero => exact grows_same o b
  | succ fuel ih =>
    rw [body]
    cases h1 : huffSym hl b with
    | none => exact grows_same o b
    | some p =>
      obtain ⟨v, b1⟩ := p
      simp only []
      have l1 := (huffSym_lt hL h1).1
      by_cases hv : v < 256
      · rw [if_pos hv]
        exact grows_step (ih _ _) (List.prefix_append _ _) (by simp; omega)
      · rw [if_neg hv]
        by_cases h256 : v = 256
        · rw [if_pos h256]
          exact ⟨List.prefix_refl _, by simp [left]; omega⟩
        · rw [if_neg h256]
          cases h2 : lenOf v with
          | none => exact grows_same o b
          | some p =>
            obtain ⟨n, x⟩ := p
            simp only []
            cases h3 : take x b1 with
            | none => exact grows_same o b
            | some p =>
              obtain ⟨y, b2⟩ := p
              simp only []
              obtain ⟨l2, l2'⟩ := take_left h3
              cases h4 : distSym hd b2 with
              | none => exact grows_same o b
              | some p =>
                obtain ⟨w, b3⟩ := p
                simp only []
                have l3 := reads_left hD h4
                cases h5 : distOf w b3 with
                | none => exact grows_same o b
                | some p =>
                  obtain ⟨d, b4⟩ := p
                  simp only []
                  have l4 := distOf_left h5
                  by_cases hgt : d > o.length
                  · rw [if_pos hgt]
                    exact grows_same o b
                  · rw [if_neg hgt]
                    obtain ⟨c1, c2⟩ := copy_len o d (n + y)
                    have := lenOf_bound hv h256 h2 y l2'
                    exact grows_step (ih _ _) c1 (by rw [c2]; omega)

/-- The result for less input and that for more. -/
def Cut (c : Bits) (x y : Bytes × Option Bits) : Prop := (∀ r, x.2 = some r → y = (x.1, some (r ++ c))) ∧ x.1 <+: y.1

theorem cut_none {c : Bits} {o : Bytes} {y : Bytes × Option Bits} (h : o <+: y.1) : Cut c (o, none) y := ⟨fun r hr => by simp at hr, h⟩

theorem body_cut {L D : List Nat} {hl : Huff} {hd : Option Huff} (hL : Decodes hl L) (hD : Reads (distSym hd) D) (c : Bits) (fuel : Nat) (o : Bytes) (b : Bits) (fuel' : Nat)
    (hf : b.length < fuel) (hf' : (b ++ c).length < fuel') : Cut c (body hl hd fuel o b) (body hl hd fuel' o (b ++ c)) := by
  induction fuel generalizing o b fuel' with
  | zero => omega
  | succ fuel ih =>
    have hg := (body_grows hL hD fuel' o (b ++ c)).1
    obtain ⟨fuel', rfl⟩ : ∃ f, fuel' = f + 1 := ⟨fuel' - 1, by omega⟩
    rw [body]
    cases h1 : huffSym hl b with
    | none => exact cut_none hg
    | some p =>
      obtain ⟨v, b1⟩ := p
      simp only []
      have l1 := (huffSym_lt hL h1).1
      have e1 := huffSym_ext hL h1 c
      by_cases hv : v < 256
      · rw [if_pos hv]
        conv => rhs; rw [body, e1]
        simp only []
        rw [if_pos hv]
        exact ih _ _ _ (by omega) (by simp at hf' ⊢; omega)
      · rw [if_neg hv]
        by_cases h256 : v = 256
        · rw [if_pos h256]
          conv => rhs; rw [body, e1]
          simp only []
          rw [if_neg hv, if_pos h256]
          exact ⟨fun r hr => by simp at hr; rw [hr], List.prefix_refl _⟩
        · rw [if_neg h256]
          cases h2 : lenOf v with
          | none => exact cut_none hg
          | some p =>
            obtain ⟨n, x⟩ := p
            simp only []
            cases h3 : take x b1 with
            | none => exact cut_none hg
            | some p =>
              obtain ⟨y, b2⟩ := p
              simp only []
              obtain ⟨l2, l2'⟩ := take_left h3
              cases h4 : distSym hd b2 with
              | none => exact cut_none hg
              | some p =>
                obtain ⟨w, b3⟩ := p
                simp only []
                have l3 := reads_left hD h4
                cases h5 : distOf w b3 with
                | none => exact cut_none hg
                | some p =>
                  obtain ⟨d, b4⟩ := p
                  simp only []
                  have l4 := distOf_left h5
                  by_cases hgt : d > o.length
                  · rw [if_pos hgt]
                    exact cut_none hg
                  · rw [if_neg hgt]
                    conv => rhs; rw [body, e1]
                    simp only []
                    rw [if_neg hv, if_neg h256, h2]
                    simp only []
                    rw [take_ext h3]
                    simp only []
                    rw [reads_ext hD h4]
                    simp only []
                    rw [distOf_ext h5]
                    simp only []
                    rw [if_neg hgt]
                    exact ih _ _ _ (by omega) (by simp at hf' ⊢; omega)

/-! ## Stored blocks -/

theorem bits_prefix {e d : Bytes} {x y : Bits} (h : bits e ++ x = bits d ++ y) (hl : e.length ≤ d.length) : e <+: d := by
  have e1 : bits d = bits (d.take e.length) ++ bits (d.drop e.length) := by rw [← bits_append, List.take_append_drop]
  rw [e1, List.append_assoc] at h
  have := (List.append_inj h (by simp only [bits_len, List.length_take]; omega)).1
  rw [bits_inj this]
  exact List.take_prefix _ _

theorem data_grows (o : Bytes) (b : Bits) : Grows o b (dataBlock o b) := by
  unfold dataBlock
  simp only []
  have hd : (b.drop (b.length % 8)).length ≤ b.length := by simp
  split
  · rename_i a a' c c' b1 h1
    obtain ⟨_, hb⟩ := (takeBytes_iff _ _ _ _).1 h1
    have l1 := congrArg List.length hb
    rw [List.length_append, bits_len] at l1
    split
    · exact grows_same o b
    · split
      · rename_i d b2 h2
        obtain ⟨_, hb2⟩ := (takeBytes_iff _ _ _ _).1 h2
        have l2 := congrArg List.length hb2
        rw [List.length_append, bits_len] at l2
        exact ⟨List.prefix_append _ _, by simp [left]; omega⟩
      · rename_i h2
        refine ⟨List.prefix_append _ _, ?_⟩
        cases h3 : takeBytes (b1.length / 8) b1 with
        | none => simp [left]
        | some p =>
          obtain ⟨e, r⟩ := p
          obtain ⟨k1, _⟩ := (takeBytes_iff _ _ _ _).1 h3
          simp [left]
          omega
  · exact grows_same o b

theorem data_cut {o : Bytes} {b c : Bits} (hc : 8 ∣ c.length) : Cut c (dataBlock o b) (dataBlock o (b ++ c)) := by
  have hg := (data_grows o (b ++ c)).1
  constructor
  · intro r hr
    obtain ⟨pad, n, n', d, hb, k1, k2, k3, k4, k5, k6⟩ := stored_sound (o := o) (o' := (dataBlock o b).1) (b := b) (r := r) (by rw [← hr])
    rw [k6]
    conv_lhs => rw [hb]
    rw [List.append_assoc]
    refine stored_read o d pad n n' (r ++ c) (by omega) ?_ k2 k3 k4 k5
    have := congrArg List.length hb
    simp only [List.length_append, bits_len] at this ⊢
    omega
  · generalize hy : dataBlock o (b ++ c) = y at hg
    unfold dataBlock
    simp only []
    have hm : (b ++ c).length % 8 = b.length % 8 := by rw [List.length_append]; omega
    have hdrop : (b ++ c).drop (b.length % 8) = b.drop (b.length % 8) ++ c := List.drop_append_of_le_length (by omega)
    split
    · rename_i a a' x x' b1 h1
      obtain ⟨_, hb⟩ := (takeBytes_iff _ _ _ _).1 h1
      have l1 := congrArg List.length hb
      rw [List.length_append, bits_len, List.length_drop] at l1
      split
      · exact hg
      · rename_i hsum
        unfold dataBlock at hy
        simp only [hm, hdrop] at hy
        rw [(takeBytes_iff 4 _ [a, a', x, x'] (b1 ++ c)).2 ⟨rfl, by rw [hb]; simp⟩] at hy
        simp only [] at hy
        rw [if_neg hsum] at hy
        split
        · rename_i d b2 h2
          obtain ⟨k1, k2⟩ := (takeBytes_iff _ _ _ _).1 h2
          rw [(takeBytes_iff _ _ d (b2 ++ c)).2 ⟨k1, by rw [k2]; simp⟩] at hy
          rw [← hy]
          exact List.prefix_refl _
        · rename_i h2
          have hlt := takeBytes_len.1 h2
          cases h3 : takeBytes (b1.length / 8) b1 with
          | none =>
            have := takeBytes_len.1 h3
            omega
          | some p =>
            obtain ⟨e, r⟩ := p
            obtain ⟨k1, k2⟩ := (takeBytes_iff _ _ _ _).1 h3
            simp only [Option.map_some, Option.getD_some]
            split at hy
            · rename_i d b2 h4
              obtain ⟨j1, j2⟩ := (takeBytes_iff _ _ _ _).1 h4
              rw [← hy]
              simp only []
              rw [List.prefix_append_right_inj]
              rw [k2, List.append_assoc] at j2
              exact bits_prefix j2 (by omega)
            · cases h5 : takeBytes ((b1 ++ c).length / 8) (b1 ++ c) with
              | none =>
                have := takeBytes_len.1 h5
                omega
              | some p =>
                obtain ⟨d, r'⟩ := p
                obtain ⟨j1, j2⟩ := (takeBytes_iff _ _ _ _).1 h5
                rw [h5] at hy
                rw [← hy]
                simp only [Option.map_some, Option.getD_some]
                rw [List.prefix_append_right_inj]
                conv_lhs at j2 => rw [k2, List.append_assoc]
                exact bits_prefix j2 (by rw [List.length_append] at j1; omega)
    · exact hg

/-! ## Blocks -/

theorem block_grows (o : Bytes) (b : Bits) : Grows o b (block o b) := by
  unfold block
  cases h1 : take 2 b with
  | none => exact grows_same o b
  | some p =>
    obtain ⟨typ, b1⟩ := p
    have l1 := (take_left h1).1
    simp only []
    split
    · exact grows_step (data_grows o b1) (List.prefix_refl _) (by omega)
    · split
      · obtain ⟨h, e, hd, _⟩ := fixedHuff_ok
        rw [e]
        exact grows_step (body_grows hd reads_fixedD _ _ _) (List.prefix_refl _) (by omega)
      · split
        · cases h2 : readHuffman b1 with
          | none => exact grows_same o b
          | some p =>
            obtain ⟨g1, g2, b2⟩ := p
            obtain ⟨L, D, hd, rfl, _, d1, _, d2⟩ := codes_sound h2
            simp only [List.length_append] at l1
            exact grows_step (body_grows d1 d2 _ _ _) (List.prefix_refl _) (by omega)
        · exact grows_same o b

theorem block_cut {o : Bytes} {b c : Bits} (hc : 8 ∣ c.length) : Cut c (block o b) (block o (b ++ c)) := by
  have hg := (block_grows o (b ++ c)).1
  generalize hy : block o (b ++ c) = y at hg
  unfold block
  cases h1 : take 2 b with
  | none => exact cut_none hg
  | some p =>
    obtain ⟨typ, b1⟩ := p
    simp only []
    unfold block at hy
    rw [take_ext h1] at hy
    simp only [] at hy
    split
    · rename_i h0
      rw [if_pos h0] at hy
      rw [← hy]
      exact data_cut hc
    · rename_i h0
      rw [if_neg h0] at hy
      obtain ⟨h, e, hd, _⟩ := fixedHuff_ok
      split
      · rename_i ht
        rw [if_pos ht, e] at hy
        rw [← hy, e]
        exact body_cut hd reads_fixedD c _ o b1 _ (by omega) (by omega)
      · rename_i ht
        rw [if_neg ht] at hy
        split
        · rename_i h2
          rw [if_pos h2] at hy
          cases h3 : readHuffman b1 with
          | none => exact cut_none hg
          | some p =>
            obtain ⟨g1, g2, b2⟩ := p
            rw [codes_ext h3] at hy
            obtain ⟨L, D, hd, rfl, _, d1, _, d2⟩ := codes_sound h3
            rw [← hy]
            exact body_cut d1 d2 c _ o b2 _ (by omega) (by omega)
        · exact cut_none hg

theorem blocks_grows (fuel : Nat) (o : Bytes) (b : Bits) : Grows o b (blocks fuel o b) := by
  induction fuel generalizing o b with
  | zero => exact grows_same o b
  | succ fuel ih =>
    cases b with
    | nil => rw [blocks_nil]; exact grows_same o []
    | cons final b =>
      rw [blocks_cons]
      split
      · exact grows_same o _
      · have hg := block_grows o b
        cases hb : block o b with
        | mk o₁ q =>
          rw [hb] at hg
          cases q with
          | none => exact grows_step hg (List.prefix_refl _) (by simp)
          | some b₁ =>
            have h2 := hg.2
            simp only [left, Option.map_some, Option.getD_some] at h2
            simp only []
            split
            · exact grows_step hg (List.prefix_refl _) (by simp)
            · exact grows_step (ih o₁ b₁) hg.1 (by simp; omega)

theorem blocks_cut {c : Bits} (hc : 8 ∣ c.length) (fuel : Nat) (o : Bytes) (b : Bits) (fuel' : Nat) (hf : b.length < fuel) (hf' : (b ++ c).length < fuel') :
    Cut c (blocks fuel o b) (blocks fuel' o (b ++ c)) := by
  induction fuel generalizing o b fuel' with
  | zero => omega
  | succ fuel ih =>
    have hg := (blocks_grows fuel' o (b ++ c)).1
    obtain ⟨fuel', rfl⟩ : ∃ f, fuel' = f + 1 := ⟨fuel' - 1, by omega⟩
    cases b with
    | nil => rw [blocks_nil]; exact cut_none hg
    | cons final b =>
      generalize hy : blocks (fuel' + 1) o (final :: b ++ c) = y at hg
      rw [blocks_cons]
      split
      · exact cut_none hg
      · rename_i h3
        rw [List.cons_append, blocks_cons, if_neg (by simp at h3 ⊢; omega)] at hy
        have hk := block_cut (o := o) (b := b) hc
        have hl := (block_grows o b).2
        cases hb : block o b with
        | mk o₁ q =>
          rw [hb] at hk hl
          cases q with
          | none =>
            refine cut_none ?_
            have k2 := hk.2
            simp only [] at k2
            rw [← hy]
            cases hb2 : block o (b ++ c) with
            | mk o₂ q₂ =>
              rw [hb2] at k2
              cases q₂ with
              | none => exact k2
              | some b₂ =>
                simp only []
                split
                · exact k2
                · exact k2.trans (blocks_grows _ _ _).1
          | some b₁ =>
            have := hk.1 b₁ rfl
            simp only [] at this
            rw [this] at hy
            simp only [] at hy
            simp only []
            cases final with
            | true =>
              simp only [if_true] at hy ⊢
              rw [← hy]
              exact ⟨fun r hr => by simp at hr; rw [hr], List.prefix_refl _⟩
            | false =>
              simp only [Bool.false_eq_true, if_false] at hy ⊢
              rw [← hy]
              have hs := block_sound (p := (8 - b.length % 8)) hb (by omega)
              obtain ⟨e, rfl, hB⟩ := hs
              have := block_len hB
              simp only [List.length_cons, List.length_append] at hf hf'
              exact ih _ _ _ (by omega) (by simp; omega)

/-! ## Streams -/

theorem inflate_cut {z o : Bytes} {q : Option Bytes} (h : inflate z = (o, q)) (c : Bytes) : o <+: (inflate (z ++ c)).1 := by
  have hk := (blocks_cut (c := bits c) (by rw [bits_len]; omega) ((bits z).length + 1) [] (bits z) ((bits (z ++ c)).length + 1) (by omega) (by rw [bits_append]; omega)).2
  rw [← bits_append] at hk
  unfold inflate at h ⊢
  cases h1 : blocks ((bits z).length + 1) [] (bits z) with
  | mk o₁ q₁ =>
    cases h2 : blocks ((bits (z ++ c)).length + 1) [] (bits (z ++ c)) with
    | mk o₂ q₂ =>
      rw [h1, h2] at hk
      rw [h1] at h
      have : o = o₁ := by
        cases q₁ <;> simp at h <;> exact h.1.symm
      rw [this]
      cases q₂ <;> exact hk

theorem inflate_bound {z o : Bytes} {q : Option Bytes} (h : inflate z = (o, q)) : o.length + 1032 * (q.map List.length).getD 0 ≤ 1032 * z.length := by
  have hk := (blocks_grows ((bits z).length + 1) [] (bits z)).2
  unfold inflate at h
  cases h1 : blocks ((bits z).length + 1) [] (bits z) with
  | mk o₁ q₁ =>
    rw [h1] at hk h
    rw [bits_len] at hk
    simp only [List.length_nil, Nat.zero_add] at hk
    cases q₁ with
    | none =>
      simp only [Prod.mk.injEq] at h
      obtain ⟨rfl, rfl⟩ := h
      simp [left] at hk ⊢
      omega
    | some b =>
      simp only [Prod.mk.injEq] at h
      obtain ⟨rfl, rfl⟩ := h
      simp [left] at hk ⊢
      omega

theorem zlibRead_cut {z o : Bytes} {k : Bool} (h : zlibRead z = some (o, k)) (c : Bytes) : ∃ o' k', zlibRead (z ++ c) = some (o', k') ∧ o <+: o' := by
  unfold zlibRead at h ⊢
  cases hh : zlibHeader z with
  | none => rw [hh] at h; simp at h
  | some z1 =>
    rw [hh] at h
    simp only [] at h
    obtain ⟨hd, rfl, hz⟩ := (zlibHeader_iff _ _).1 hh
    rw [List.append_assoc, (zlibHeader_iff _ (z1 ++ c)).2 ⟨hd, rfl, hz⟩]
    simp only []
    have hp : o <+: (inflate (z1 ++ c)).1 := by
      cases hi : inflate z1 with
      | mk o₁ q =>
        have := inflate_cut hi c
        rw [hi] at h
        have e : o = o₁ := by
          cases q <;> simp at h <;> exact h.1.symm
        rw [e]
        exact this
    cases hi : inflate (z1 ++ c) with
    | mk o₂ q₂ =>
      rw [hi] at hp
      cases q₂ with
      | none => exact ⟨o₂, false, rfl, hp⟩
      | some r => exact ⟨o₂, _, rfl, hp⟩

theorem zlibRead_bound {z o : Bytes} {k : Bool} (h : zlibRead z = some (o, k)) : o.length ≤ 1032 * z.length := by
  unfold zlibRead at h
  cases hh : zlibHeader z with
  | none => rw [hh] at h; simp at h
  | some z1 =>
    rw [hh] at h
    simp only [] at h
    obtain ⟨hd, rfl, hz⟩ := (zlibHeader_iff _ _).1 hh
    cases hi : inflate z1 with
    | mk o₁ q =>
      have := inflate_bound hi
      rw [hi] at h
      have e : o = o₁ := by
        cases q <;> simp at h <;> exact h.1.symm
      rw [e]
      simp only [List.length_append]
      omega

theorem members_bound (fuel : Nat) (z : Bytes) : (members fuel z).1.length ≤ 1032 * z.length := by
  induction fuel generalizing z with
  | zero => simp [members]
  | succ fuel ih =>
    rw [members]
    cases hi : inflate z with
    | mk o q =>
      have := inflate_bound hi
      cases q with
      | none => simp at this ⊢; omega
      | some r =>
        simp only [Option.map_some, Option.getD_some] at this ⊢
        split
        · simp only []; omega
        · split
          · simp only []; omega
          · cases hh : gzipHeader (r.drop 8) with
            | none => simp only []; omega
            | some z' =>
              obtain ⟨hd, e, hg⟩ := (gzipHeader_iff _ _).1 hh
              have l := congrArg List.length e
              rw [List.length_drop, List.length_append] at l
              have := ih z'
              simp only [List.length_append]
              omega

theorem gzipRead_bound {z o : Bytes} {k : Bool} (h : gzipRead z = some (o, k)) : o.length ≤ 1032 * z.length := by
  unfold gzipRead at h
  cases hh : gzipHeader z with
  | none => rw [hh] at h; simp at h
  | some z1 =>
    rw [hh] at h
    simp only [Option.some.injEq] at h
    obtain ⟨hd, rfl, hg⟩ := (gzipHeader_iff _ _).1 hh
    have := members_bound ((hd ++ z1).length + 1) z1
    rw [h] at this
    simp only [List.length_append] at this ⊢
    omega

theorem be32_len {bs : Bytes} {n : Nat} (h : be32 bs = some n) : bs.length = 4 := big_len ((be32_iff _ _).1 h)

theorem members_cut (c : Bytes) (fuel : Nat) (z : Bytes) (fuel' : Nat) (hf' : (z ++ c).length < fuel') :
    (members fuel z).1 <+: (members fuel' (z ++ c)).1 := by
  induction fuel generalizing z fuel' with
  | zero => exact List.nil_prefix
  | succ fuel ih =>
    obtain ⟨fuel', rfl⟩ : ∃ f, fuel' = f + 1 := ⟨fuel' - 1, by omega⟩
    have first : (inflate (z ++ c)).1 <+: (members (fuel' + 1) (z ++ c)).1 := by
      rw [members]
      cases hi : inflate (z ++ c) with
      | mk o q =>
        cases q with
        | none => exact List.prefix_refl _
        | some r =>
          simp only []
          split
          · exact List.prefix_refl _
          · split
            · exact List.prefix_refl _
            · cases gzipHeader (r.drop 8) with
              | none => exact List.prefix_refl _
              | some z' => exact List.prefix_append _ _
    cases hi : inflate z with
    | mk o q =>
      have hp := (inflate_cut hi c).trans first
      rw [members, hi]
      cases q with
      | none => exact hp
      | some r =>
        simp only []
        by_cases hs : be32 ((r.take 4).reverse) ≠ some (Gofer.Crc32.crc32 o).toNat ∨ be32 (((r.drop 4).take 4).reverse) ≠ some (o.length % 2 ^ 32)
        · rw [if_pos hs]
          exact hp
        · rw [if_neg hs]
          by_cases h8 : r.drop 8 = []
          · rw [if_pos h8]
            exact hp
          · rw [if_neg h8]
            cases hh : gzipHeader (r.drop 8) with
            | none => exact hp
            | some z' =>
              simp only []
              obtain ⟨d, ez, hD⟩ := (inflate_iff _ _ _).1 hi
              have hi' : inflate (z ++ c) = (o, some (r ++ c)) := (inflate_iff _ _ _).2 ⟨d, by rw [ez]; simp, hD⟩
              have l8 : 8 < r.length := by
                have : (r.drop 8).length ≠ 0 := fun e => h8 (List.eq_nil_of_length_eq_zero e)
                rw [List.length_drop] at this
                omega
              have t1 : (r ++ c).take 4 = r.take 4 := List.take_append_of_le_length (by omega)
              have t2 : ((r ++ c).drop 4).take 4 = (r.drop 4).take 4 := by
                rw [List.drop_append_of_le_length (by omega), List.take_append_of_le_length (by rw [List.length_drop]; omega)]
              have t3 : (r ++ c).drop 8 = r.drop 8 ++ c := List.drop_append_of_le_length (by omega)
              obtain ⟨hd, e, hg⟩ := (gzipHeader_iff _ _).1 hh
              have hh' : gzipHeader (r.drop 8 ++ c) = some (z' ++ c) := (gzipHeader_iff _ _).2 ⟨hd, by rw [e]; simp, hg⟩
              conv => rhs; rw [members, hi']
              simp only []
              rw [t1, t2, t3, if_neg hs, if_neg (fun e => h8 (List.append_eq_nil_iff.1 e).1), hh']
              simp only []
              rw [List.prefix_append_right_inj]
              refine ih z' _ ?_
              have l := congrArg List.length e
              have lz := congrArg List.length ez
              simp only [List.length_append, List.length_drop] at l lz hf' ⊢
              omega

theorem gzipRead_cut {z o : Bytes} {k : Bool} (h : gzipRead z = some (o, k)) (c : Bytes) : ∃ o' k', gzipRead (z ++ c) = some (o', k') ∧ o <+: o' := by
  unfold gzipRead at h ⊢
  cases hh : gzipHeader z with
  | none => rw [hh] at h; simp at h
  | some z1 =>
    rw [hh] at h
    simp only [Option.some.injEq] at h
    obtain ⟨hd, rfl, hg⟩ := (gzipHeader_iff _ _).1 hh
    have e : gzipHeader (hd ++ z1 ++ c) = some (z1 ++ c) := (gzipHeader_iff _ _).2 ⟨hd, by simp, hg⟩
    rw [e]
    refine ⟨_, _, rfl, ?_⟩
    have := members_cut c ((hd ++ z1).length + 1) z1 ((hd ++ z1 ++ c).length + 1) (by simp; omega)
    rw [h] at this
    exact this

end Gofer.Inflate
