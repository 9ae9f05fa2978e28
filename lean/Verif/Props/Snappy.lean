import Verif.Proof.Snappy
/-! # Property C195: Snappy -/
namespace Gofer.Props.Snappy
open Gofer.Snappy Gofer.Spec.Snappy

/-- C195, as stated: a block for `x` is decoded to `x` by both packages, no other bytes of the same length are taken for a block, and the packages agree on what a block is. -/
def C195_claim : Prop := ∀ first x block, Block x block →
  unSnappy first block = (x, false) ∧ snappyDecode block = x ∧ (∀ other, other.length = block.length → other ≠ block → (unSnappy first other).2 = true) ∧
  ∀ src, (unSnappy first src).2 = false → decode src = some (unSnappy first src).1

theorem un_ok {first : Nat} {src x : Bytes} : unSnappy first src = (x, false) ↔ decode2 first src = some x := by
  unfold unSnappy
  split
  · rename_i r hr; rw [hr]; simp
  · rename_i hr; rw [hr]; simp

theorem un_err {first : Nat} {src : Bytes} : (unSnappy first src).2 = true ↔ decode2 first src = none := by
  unfold unSnappy
  split
  · rename_i r hr; rw [hr]; simp
  · rename_i hr; rw [hr]; simp

/-- C195. Every block for `x`, whatever elements the encoder chose, is decoded to `x`, by both packages. Missing: damaged blocks. -/
theorem C195_roundtrip_partial (first : Nat) (x block : Bytes) (h : Block x block) : unSnappy first block = (x, false) ∧ snappyDecode block = x := by
  obtain ⟨es, b, hl, hw, hv, he, rfl⟩ := h
  constructor
  · rw [un_ok]
    unfold decode2
    rw [decodedLen_varint _ hl]
    show loop2 x.length b.length [] first b = some x
    rw [loop2_of (writesAll2_of hw first) x.length b.length [] (Nat.le_refl _) hv (by rw [he]), he]
  · have : decode (varint x.length ++ b) = some x := by
      unfold decode
      rw [decodedLen_varint _ hl]
      show loop x.length b.length [] b = some x
      rw [loop_of hw x.length b.length [] (Nat.le_refl _) hv (by rw [he]), he]
    simp [snappyDecode, this]

/-- C195. Bytes that package util's library accepts are a sequence of elements for the result, after a length; so the decoder never invents data. -/
theorem C195_accepts (src x : Bytes) (h : decode src = some x) :
    ∃ es head b, src = head ++ b ∧ WritesAll es b ∧ Valid es [] ∧ expand es [] = x ∧ x.length < 2 ^ 32 := by
  unfold decode at h
  split at h
  · cases h
  · rename_i n b hl
    obtain ⟨es, h1, h2, h3, h4⟩ := loop_inv _ _ _ _ _ h
    obtain ⟨head, hs, hn⟩ := decodedLen_inv hl
    exact ⟨es, head, b, hs, h1, h2, h3, by omega⟩

/-- C195. The same of `UnSnappy`, whose elements may be repeats. -/
theorem C195_accepts_s2 (first : Nat) (src x : Bytes) (h : unSnappy first src = (x, false)) :
    ∃ es head b, src = head ++ b ∧ WritesAll2 first es b ∧ Valid es [] ∧ expand es [] = x ∧ x.length < 2 ^ 32 := by
  rw [un_ok] at h
  unfold decode2 at h
  split at h
  · cases h
  · rename_i n b hl
    obtain ⟨es, h1, h2, h3, h4⟩ := loop2_inv _ _ _ _ _ _ h
    obtain ⟨head, hs, hn⟩ := decodedLen_inv hl
    exact ⟨es, head, b, hs, h1, h2, h3, by omega⟩

/-- C195. What package util's library accepts, `UnSnappy` decodes to the same. -/
theorem C195_agree (first : Nat) (src x : Bytes) (h : decode src = some x) : unSnappy first src = (x, false) := by
  rw [un_ok]
  unfold decode at h
  unfold decode2
  split at h
  · cases h
  · rename_i n b hl
    obtain ⟨es, h1, h2, h3, h4⟩ := loop_inv _ _ _ _ _ h
    show loop2 n b.length [] first b = some x
    rw [loop2_of (writesAll2_of h1 first) n b.length [] (Nat.le_refl _) h2 (by rw [h3, h4]), h3]

/-- C195. Not the other way round: a block with a repeat is data for `UnSnappy`, and nothing for `SnappyDecode`. -/
theorem C195_disagree (first : Nat) : ∃ src, unSnappy first src = ([97, 98, 97, 98, 97, 98, 97, 98, 97, 98], false) ∧ decode src = none ∧ snappyDecode src = [] := by
  refine ⟨[10, 4, 97, 98, 1, 2, 1, 0], ?_, by decide +kernel, by decide +kernel⟩
  have hw : WritesAll2 first [.lit [97, 98], .copy 2 4, .copy 2 4] ([4, 97, 98] ++ ([1, 2] ++ ([1, 0] ++ []))) :=
    .cons (.plain (.short [97, 98] (by decide) (by decide))) (.cons (.plain (.copy1 2 4 (by decide) (by decide) (by decide)))
      (.cons (.rep0 4 (by decide) (by decide)) .nil))
  have hd : decodedLen [10, 4, 97, 98, 1, 2, 1, 0] = some (10, [4, 97, 98, 1, 2, 1, 0]) := by decide +kernel
  rw [un_ok]
  unfold decode2
  rw [hd]
  exact loop2_of hw 10 7 [] (by decide) (by simp [Valid, back_length]) rfl

/-- C195. A block that is cut off anywhere gives an error in both libraries. -/
theorem C195_truncated (src x p : Bytes) (h : decode src = some x) (hp : p <+: src) (hne : p ≠ src) : decode p = none := by
  obtain ⟨s, rfl⟩ := hp
  have hs : s ≠ [] := by rintro rfl; simp at hne
  cases hq : decode p with
  | none => rfl
  | some y =>
    exfalso
    unfold decode at hq h
    split at hq
    · cases hq
    · rename_i n b hl
      rw [decodedLen_ext s hl] at h
      simp only at h
      rw [loop_more n _ _ _ _ _ s hq hs] at h
      cases h

theorem C195_truncated_s2 (first : Nat) (src x p : Bytes) (h : unSnappy first src = (x, false)) (hp : p <+: src) (hne : p ≠ src) : (unSnappy first p).2 = true := by
  obtain ⟨s, rfl⟩ := hp
  have hs : s ≠ [] := by rintro rfl; simp at hne
  rw [un_ok] at h
  rw [un_err]
  cases hq : decode2 first p with
  | none => rfl
  | some y =>
    exfalso
    unfold decode2 at hq h
    split at hq
    · cases hq
    · rename_i n b hl
      rw [decodedLen_ext s hl] at h
      simp only at h
      rw [loop2_more n _ _ _ _ _ _ s hq hs] at h
      cases h

/-- C195. The encoder's blocks for up to 16 bytes are blocks. -/
theorem C195_small (x : Bytes) (h : x.length < 17) : Block x (encodeSmall x) := by
  have hv : varint x.length = [x.length.toUInt8] := by rw [varint, dif_pos (by omega)]
  by_cases hx : x = []
  · subst hx
    exact ⟨[], [], by decide, .nil, trivial, rfl, by rw [hv]; rfl⟩
  · have h0 := List.length_pos_iff.2 hx
    refine ⟨[.lit x], emitLiteral x, by omega, ?_, trivial, rfl, by rw [hv]; simp [encodeSmall, hx]⟩
    have := WritesAll.cons (Writes.short x (by omega) (by omega)) .nil
    simpa [emitLiteral] using this

/-- C195. There is no checksum: changing a data byte of a short block (as the encoder makes them for 1 to 16 bytes) just changes the result. -/
theorem C195_undetected (first : Nat) (x : Bytes) (h1 : x ≠ []) (h2 : x.length < 17) (i : Nat) (v : UInt8) :
    unSnappy first ((encodeSmall x).set (i + 2) v) = (x.set i v, false) ∧ snappyDecode ((encodeSmall x).set (i + 2) v) = x.set i v := by
  have e : ∀ y : Bytes, y ≠ [] → encodeSmall y = y.length.toUInt8 :: (4 * (y.length - 1)).toUInt8 :: y := by
    intro y hy; simp [encodeSmall, hy, emitLiteral]
  have e2 : (encodeSmall x).set (i + 2) v = encodeSmall (x.set i v) := by
    rw [e x h1, e _ (by simpa using h1)]; simp
  rw [e2]
  exact C195_roundtrip_partial first _ _ (C195_small _ (by simpa using h2))

/-- C195. `SnappyDecode` of any bytes that are no block gives the same as of the block for no data. -/
theorem C195_silent (src : Bytes) (h : decode src = none) : snappyDecode src = snappyDecode (encodeSmall []) := by
  rw [(C195_roundtrip_partial 0 [] _ (C195_small [] (by decide))).2]
  simp [snappyDecode, h]

theorem size_all {es : List Elem} {b : Bytes} (h : WritesAll es b) : ∀ dst, 3 * (expand es dst).length ≤ 3 * dst.length + 64 * b.length := by
  induction h with
  | nil => intro dst; simp [expand]
  | @cons e es b bs hw _ ih =>
    intro dst
    rw [expand_cons]
    have := ih (expand [e] dst)
    rw [expand_one_length] at this
    have := (writes_size hw).2
    simp only [List.length_append]
    omega

/-- C195. What package util's library gives is at most 64/3 times as long as the block … -/
theorem C195_bound (src x : Bytes) (h : decode src = some x) : 3 * x.length ≤ 64 * src.length := by
  obtain ⟨es, head, b, rfl, hw, _, he, _⟩ := C195_accepts src x h
  have := size_all hw []
  rw [he] at this
  simp only [List.length_append, List.length_nil] at this ⊢
  omega

theorem varint_length (n : Nat) : ∀ k, n < 128 ^ (k + 1) → (varint n).length ≤ k + 1 := by
  induction n using Nat.strongRecOn with
  | ind n ih =>
    intro k hk
    rw [varint]
    split
    · simp
    · rename_i hs
      cases k with
      | zero => simp at hk; omega
      | succ k =>
        have := ih (n / 128) (by omega) k (by rw [Nat.pow_succ] at hk; exact Nat.div_lt_of_lt_mul (by rw [Nat.mul_comm]; exact hk))
        simp; omega

theorem varint_five (n : Nat) (h : n < 2 ^ 32) : (varint n).length ≤ 5 :=
  varint_length n 4 (by have : (128 : Nat) ^ (4 + 1) = 34359738368 := by decide
                        rw [this]; omega)

/-- C195. … but `UnSnappy` takes fourteen bytes that stand for any number of bytes between 65545 and 16 MiB, without error. -/
theorem C195_bomb (first n : Nat) (h1 : 65545 ≤ n) (h2 : n ≤ 2 ^ 24) : ∃ src x, unSnappy first src = (x, false) ∧ src.length ≤ 14 ∧ x.length = n := by
  have hw : WritesAll2 first [.lit [0], .copy 1 4, .copy 1 (n - 5)] ([0, 0] ++ ([1, 1] ++ ((29 :: 0 :: le 3 (n - 5 - 65540)) ++ []))) :=
    .cons (.plain (.short [0] (by decide) (by decide))) (.cons (.plain (.copy1 1 4 (by decide) (by decide) (by decide)))
      (.cons (.rep3 (n - 5) (by omega) (by omega)) .nil))
  refine ⟨varint n ++ ([0, 0] ++ ([1, 1] ++ ((29 :: 0 :: le 3 (n - 5 - 65540)) ++ []))), expand [.lit [0], .copy 1 4, .copy 1 (n - 5)] [], ?_, ?_, ?_⟩
  · have hl : (expand [.lit [0], .copy 1 4, .copy 1 (n - 5)] []).length = n := by
      simp only [expand, back_length, List.length_append, List.length_cons, List.length_nil]; omega
    rw [un_ok]
    unfold decode2
    rw [decodedLen_varint _ (by omega)]
    show loop2 n _ [] first _ = _
    exact loop2_of hw n _ [] (Nat.le_refl _) (by simp [Valid, back_length]) hl
  · have := varint_five n (by omega)
    simp only [List.length_append, List.length_cons, List.length_nil, le_length]
    omega
  · simp only [expand, back_length, List.length_append, List.length_cons, List.length_nil]; omega

/-- C195. In both libraries, before the elements are looked at, as much memory is allocated as the block says: five bytes can say anything below 4 GiB. -/
theorem C195_announced (first n : Nat) (h : n < 2 ^ 32) (h0 : 0 < n) :
    (varint n).length ≤ 5 ∧ announced (varint n) = n ∧ (unSnappy first (varint n)).2 = true ∧ decode (varint n) = none := by
  have hd := decodedLen_varint n h []
  rw [List.append_nil] at hd
  refine ⟨varint_five n h, by simp [announced, hd], ?_, ?_⟩
  · rw [un_err]
    unfold decode2
    rw [hd]
    show loop2 n 0 [] first [] = none
    simp [loop2]; omega
  · unfold decode
    rw [hd]
    show loop n 0 [] [] = none
    simp [loop]; omega

/-- C195 is false: a changed data byte is not noticed. -/
theorem C195_claim_false : ¬ C195_claim := by
  intro h
  have h1 := (h 0 [1] _ (C195_small [1] (by decide))).2.2.1 ((encodeSmall [1]).set 2 9) (by decide) (by decide)
  rw [(C195_undetected 0 [1] (by decide) (by decide) 0 9).1] at h1
  cases h1

/-! ### Concrete cases -/

/-- "ab" five times: a literal and a copy that overlaps itself. -/
example : Block [97, 98, 97, 98, 97, 98, 97, 98, 97, 98] [10, 4, 97, 98, 17, 2] := by
  refine ⟨[.lit [97, 98], .copy 2 8], [4, 97, 98, 17, 2], by decide, ?_, by simp [Valid], rfl, by rw [varint]; rfl⟩
  have := WritesAll.cons (Writes.short [97, 98] (by decide) (by decide)) (.cons (Writes.copy1 2 8 (by decide) (by decide) (by decide)) .nil)
  simpa using this

example : decode [10, 4, 97, 98, 17, 2] = some [97, 98, 97, 98, 97, 98, 97, 98, 97, 98] := by decide +kernel
example : unSnappy 0 [10, 4, 97, 98, 17, 2] = ([97, 98, 97, 98, 97, 98, 97, 98, 97, 98], false) := by decide +kernel

/-- A copy from before the beginning, a length that is not reached, one that is passed. -/
example : decode [10, 4, 97, 98, 17, 3] = none ∧ decode [11, 4, 97, 98, 17, 2] = none ∧ decode [9, 4, 97, 98, 17, 2] = none := by decide +kernel

/-- A literal with its length in two bytes. -/
example : decode [1, 244, 0, 0, 7] = some [7] := by decide +kernel

/-- A repeat with its length in one more byte: nine times the same byte. -/
example : unSnappy 0 [14, 0, 7, 1, 1, 21, 0, 1] = (List.replicate 14 7, false) := by decide +kernel

end Gofer.Props.Snappy
