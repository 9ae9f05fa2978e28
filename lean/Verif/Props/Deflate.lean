import Verif.Proof.DeflateMore
/-!
# zlib and gzip data: properties C241 to C244

`unZlib`, `unGzip`, `utilUnZlib` and `utilUnGzip` are the functions of the packages `compress` and `util` over the readers of Go (`Model/Inflate`); the formats are those of
`Spec/Deflate`.
-/
namespace Gofer.Props.Deflate
open Gofer.Inflate Gofer.Spec.Deflate
open Gofer.Spec.Codec (Codec Lawful)

/-! ## C241: what is accepted, and what it means -/

theorem out_ok (r : Bytes → Option (Bytes × Bool)) (z d : Bytes) : Compress.unZlib (reader r) z = ⟨d, false⟩ ↔ r z = some (d, true) := by
  unfold Compress.unZlib reader
  simp only []
  cases h : r z with
  | none => simp
  | some p =>
    obtain ⟨o, k⟩ := p
    cases k <;> simp

theorem out_bad (r : Bytes → Option (Bytes × Bool)) (z : Bytes) (h : ∀ d, Compress.unZlib (reader r) z ≠ ⟨d, false⟩) : Compress.unZlib (reader r) z = ⟨[], true⟩ := by
  revert h
  unfold Compress.unZlib reader
  simp only []
  cases r z with
  | none => simp
  | some p =>
    obtain ⟨o, k⟩ := p
    cases k <;> simp

/-- C241. `compress.UnZlib` returns `d` without an error iff its argument begins with a zlib stream for `d` (RFC 1950, 1951). -/
theorem C241_zlib (z d : Bytes) : unZlib z = ⟨d, false⟩ ↔ ∃ p rest, z = p ++ rest ∧ Zlib d p := (out_ok _ _ _).trans (zlibRead_iff z d)

/-- C241. `compress.UnGzip` returns `d` without an error iff its argument is a gzip file for `d` (RFC 1952). -/
theorem C241_gzip (z d : Bytes) : unGzip z = ⟨d, false⟩ ↔ Gzip d z := (out_ok _ _ _).trans (gzipRead_iff z d)

/-- C241. In all other cases there is an error and no data. -/
theorem C241_else (z : Bytes) :
    ((∀ d, ¬ ∃ p rest, z = p ++ rest ∧ Zlib d p) → unZlib z = ⟨[], true⟩) ∧ ((∀ d, ¬ Gzip d z) → unGzip z = ⟨[], true⟩) :=
  ⟨fun h => out_bad _ _ fun d hd => h d ((C241_zlib z d).1 hd), fun h => out_bad _ _ fun d hd => h d ((C241_gzip z d).1 hd)⟩

/-- C241. The formats have one meaning: no stream is one for two data, and no stream begins another. -/
theorem C241_one_meaning (d d' z z' : Bytes) : (Zlib d z → Zlib d' z' → z <+: z' → d = d' ∧ z = z') ∧ (Gzip d z → Gzip d' z → d = d') := by
  constructor
  · rintro h h' ⟨t, rfl⟩
    exact zlib_prefix (r := t) (r' := []) h h' (by simp)
  · intro h h'
    have h1 := (C241_gzip _ _).2 h
    have h2 := (C241_gzip _ _).2 h'
    rw [h1] at h2
    simpa using h2

/-- C241. Every data can be sent: there is a stream for it, and it is hardly longer (the data stored). -/
theorem C241_every (d : Bytes) :
    (∃ z, unZlib z = ⟨d, false⟩ ∧ z.length ≤ d.length + 5 * (d.length / 65535 + 2) + 6) ∧ (∃ z, unGzip z = ⟨d, false⟩ ∧ z.length ≤ d.length + 5 * (d.length / 65535 + 2) + 18) := by
  obtain ⟨z, hz, hl⟩ := deflated_exists d
  obtain ⟨s, hs, h⟩ := zlib_of hz
  obtain ⟨t, ht, h'⟩ := gzip_of hz
  refine ⟨⟨_, (C241_zlib _ _).2 ⟨_, [], (List.append_nil _).symm, h⟩, by simp; omega⟩, ⟨_, (C241_gzip _ _).2 (.one _ _ h'), by simp; omega⟩⟩

/-- C241. What C42 takes from a zlib library is a matter of the format: a writer that writes zlib streams, and at a `Flush` all blocks but the last, meets these laws with the
reader of Go. -/
theorem C241_lawful (written flushed closed : Bytes → Bytes) (hfull : ∀ x, Zlib x (written x ++ closed x))
    (hflush : ∀ x, ∃ h z, written x ++ flushed x = h ++ z ∧ ZHead h ∧ Flushed x z) (hne : ∀ x, written x ≠ []) : Lawful ⟨written, flushed, closed, zlibRead⟩ where
  full x := (zlibRead_iff _ _).2 ⟨_, [], (List.append_nil _).symm, hfull x⟩
  flush x := by
    obtain ⟨h, z, e, hz, hf⟩ := hflush x
    show zlibRead (written x ++ flushed x) = _
    rw [e]
    unfold zlibRead
    rw [(zlibHeader_iff _ z).2 ⟨h, rfl, hz⟩]
    simp only []
    rw [flushed_read hf]
  header := hne

/-- "hello hello hello", compressed with the fixed codes. -/
example : unZlib [120, 156, 203, 72, 205, 201, 201, 87, 200, 64, 144, 0, 58, 46, 6, 125] = ⟨[104, 101, 108, 108, 111, 32, 104, 101, 108, 108, 111, 32, 104, 101, 108, 108, 111], false⟩ := by decide +kernel

/-- A block with its own codes. -/
example : unZlib [120, 218, 29, 141, 209, 21, 0, 0, 8, 1, 103, 61, 236, 63, 67, 209, 15, 186, 94, 80, 108, 64, 150, 196, 59, 145, 38, 227, 143, 254, 216, 121, 84, 215, 184, 59, 102, 94, 50, 226, 148, 249, 55, 202, 96, 69, 97, 31, 216, 133, 85, 183, 10, 181, 224, 0, 216, 82, 45, 226] = ⟨[97, 98, 100, 99, 99, 97, 97, 97, 98, 99, 98, 98, 98, 97, 99, 97, 97, 98, 97, 100, 97, 97, 98, 99, 99, 97, 99, 98, 97, 99, 99, 97, 98, 97, 97, 97, 97, 97, 98, 98, 97, 97, 98, 97, 97, 99, 97, 98, 97, 99, 98, 98, 98, 97, 97, 97, 98, 97, 99, 98, 97, 97, 97, 100, 98, 98, 97, 97, 98, 99, 100, 97, 97, 99, 97, 99, 99, 98, 97, 98, 100, 98, 97, 97, 97, 98, 98, 100, 98, 97, 98, 100, 97, 98, 97, 99, 99, 97, 97, 98, 97, 97, 98, 99, 99, 98, 99, 97, 97, 98, 98, 98, 97, 99, 97, 98, 100, 97, 97, 98], false⟩ := by decide +kernel

/-- A byte of it changed. -/
example : unZlib [120, 156, 75, 76, 75, 6, 0, 2, 77, 1, 39] = ⟨[], true⟩ := by decide +kernel

example : unGzip [31, 139, 8, 0, 0, 0, 0, 0, 0, 255, 75, 76, 74, 6, 0, 194, 65, 36, 53, 3, 0, 0, 0] = ⟨[97, 98, 99], false⟩ := by decide +kernel

/-! ## C242: what follows a stream -/

/-- C242. What follows a zlib stream is not looked at. -/
theorem C242_zlib_rest (z d : Bytes) (h : unZlib z = ⟨d, false⟩) (t : Bytes) : unZlib (z ++ t) = ⟨d, false⟩ := by
  obtain ⟨p, rest, rfl, hz⟩ := (C241_zlib _ _).1 h
  exact (C241_zlib _ _).2 ⟨p, rest ++ t, by simp, hz⟩

/-- C242. Two gzip files, one after the other, are a gzip file for both data. -/
theorem C242_gzip_append (z z' d d' : Bytes) (h : unGzip z = ⟨d, false⟩) (h' : unGzip z' = ⟨d', false⟩) : unGzip (z ++ z') = ⟨d ++ d', false⟩ :=
  (C241_gzip _ _).2 (gzip_append ((C241_gzip _ _).1 h) ((C241_gzip _ _).1 h'))

/-- C242. After a gzip file there may be nothing, or a gzip file: anything else is an error. -/
theorem C242_gzip_rest (z d : Bytes) (h : unGzip z = ⟨d, false⟩) (t e : Bytes) :
    unGzip (z ++ t) = ⟨e, false⟩ ↔ (t = [] ∧ e = d) ∨ ∃ d', unGzip t = ⟨d', false⟩ ∧ e = d ++ d' := by
  constructor
  · intro h'
    rcases gzip_split ((C241_gzip _ _).1 h) ((C241_gzip _ _).1 h') with h1 | ⟨d', h1, h2⟩
    · exact .inl h1
    · exact .inr ⟨d', (C241_gzip _ _).2 h1, h2⟩
  · rintro (⟨rfl, rfl⟩ | ⟨d', h1, rfl⟩)
    · rwa [List.append_nil]
    · exact C242_gzip_append _ _ _ _ h h1

example : unGzip ([31, 139, 8, 0, 0, 0, 0, 0, 0, 255, 75, 76, 74, 6, 0, 194, 65, 36, 53, 3, 0, 0, 0] ++ [0]) = ⟨[], true⟩ := by decide +kernel

/-! ## C243: how much data may come out -/

/-- C243. No function gives more than 1032 bytes for each byte that it is given, whatever that is. -/
theorem C243_bound (z : Bytes) : (unZlib z).bytes.length ≤ 1032 * z.length ∧ (unGzip z).bytes.length ≤ 1032 * z.length ∧ (utilUnZlib z).bytes.length ≤ 1032 * z.length := by
  have hz := fun d k => zlibRead_bound (z := z) (o := d) (k := k)
  have hg := fun d k => gzipRead_bound (z := z) (o := d) (k := k)
  refine ⟨?_, ?_, ?_⟩
  · unfold unZlib Compress.unZlib reader
    simp only []
    cases h : zlibRead z with
    | none => simp
    | some p =>
      obtain ⟨d, k⟩ := p
      cases k with
      | false => simp
      | true => exact hz _ _ h
  · unfold unGzip Compress.unZlib reader
    simp only []
    cases h : gzipRead z with
    | none => simp
    | some p =>
      obtain ⟨d, k⟩ := p
      cases k with
      | false => simp
      | true => exact hg _ _ h
  · unfold utilUnZlib Compress.utilUnZlib reader
    simp only []
    cases h : zlibRead z with
    | none => simp
    | some p =>
      obtain ⟨d, k⟩ := p
      exact hz _ _ h

theorem loop_prefix {ok : Bool} {d : Bytes} {rs : List (Bytes × Compress.RErr)} (h : Compress.Reads ok d rs) : Compress.unGzipLoop rs <+: d := by
  induction h with
  | @piece c d rs hc hl hr ih =>
    simp only [Compress.unGzipLoop]
    split
    · exact List.nil_prefix
    · exact (List.prefix_append_right_inj c).2 ih
  | @last c rest hl _ =>
    simp only [Compress.unGzipLoop]
    split
    · exact List.nil_prefix
    · simp
  | @bad c rest hl hok =>
    simp only [Compress.unGzipLoop]
    split
    · exact List.nil_prefix
    · simp_all

/-- C243. The same for `util.UnGzip`, in whatever pieces the reader gives its data. -/
theorem C243_bound_utilUnGzip (z d : Bytes) (ok : Bool) (split : List (Bytes × Compress.RErr)) (h : gzipRead z = some (d, ok)) (hr : Compress.Reads ok d split) :
    (utilUnGzip z split).bytes.length ≤ 1032 * z.length := by
  have : (utilUnGzip z split).bytes <+: d := by
    unfold utilUnGzip Compress.utilUnGzip reader
    simp only [h]
    exact loop_prefix hr
  exact le_trans this.length_le (gzipRead_bound h)

/-- C243. The factor cannot be smaller: these streams of `k + 20` and `k + 32` bytes give `1032 * k + 1` bytes. -/
theorem C243_attained (k : Nat) : ∃ s t : Bytes, s.length = 4 ∧ t.length = 8 ∧
    unZlib ([120, 156] ++ ([237, 192, 129, 0, 0, 0, 0, 128, 160, 253, 169, 23, 169] ++ (List.replicate k 0 ++ [6]) ++ s)) = ⟨List.replicate (1032 * k + 1) 0, false⟩ ∧
    unGzip ([31, 139, 8, 0, 0, 0, 0, 0, 0, 255] ++ ([237, 192, 129, 0, 0, 0, 0, 128, 160, 253, 169, 23, 169] ++ (List.replicate k 0 ++ [6]) ++ t)) =
      ⟨List.replicate (1032 * k + 1) 0, false⟩ := by
  have hz := zeros_deflated k
  obtain ⟨s, hs, h⟩ := zlib_of hz
  obtain ⟨t, ht, h'⟩ := gzip_of hz
  exact ⟨s, t, hs, ht, (C241_zlib _ _).2 ⟨_, [], (List.append_nil _).symm, h⟩, (C241_gzip _ _).2 (.one _ _ h')⟩

/-- C243. So no bound with a smaller factor holds, whatever is added. -/
theorem C243_no_smaller (a c : Nat) (h : ∀ z, (unZlib z).bytes.length ≤ a * z.length + c) : 1032 ≤ a := by
  by_contra hlt
  obtain ⟨s, _, hs, _, h1, _⟩ := C243_attained (1031 * 20 + c)
  have := h ([120, 156] ++ ([237, 192, 129, 0, 0, 0, 0, 128, 160, 253, 169, 23, 169] ++ (List.replicate (1031 * 20 + c) 0 ++ [6]) ++ s))
  rw [h1] at this
  simp only [List.length_append, List.length_cons, List.length_nil, List.length_replicate, hs] at this
  have h2 : a ≤ 1031 := by omega
  have h3 : a * (0 + 1 + 1 + (0 + 1 + 1 + 1 + 1 + 1 + 1 + 1 + 1 + 1 + 1 + 1 + 1 + 1 + (1031 * 20 + c + (0 + 1)) + 4)) ≤
      1031 * (0 + 1 + 1 + (0 + 1 + 1 + 1 + 1 + 1 + 1 + 1 + 1 + 1 + 1 + 1 + 1 + 1 + (1031 * 20 + c + (0 + 1)) + 4)) := Nat.mul_le_mul_right _ h2
  omega

/-- The stream for `k = 3`: 23 bytes for 3097 zeros. -/
example : unZlib [120, 156, 237, 192, 129, 0, 0, 0, 0, 128, 160, 253, 169, 23, 169, 0, 0, 0, 6, 12, 25, 0, 1] = ⟨List.replicate 3097 0, false⟩ := by
  have hb : Big (adler (List.replicate 3097 0)) [12, 25, 0, 1] := ⟨12, 25, 0, 1, rfl, by rw [← adler_eq]; decide +kernel⟩
  exact (C241_zlib _ _).2 ⟨_, [], (List.append_nil _).symm, [120, 156], zerosStream 3, [12, 25, 0, 1], rfl, zhead_default, zeros_deflated 3, hb⟩

/-! ## C244: streams that are cut off -/

/-- C244, as stated: a stream that is cut off is not taken for a whole one. -/
def C244_claim : Prop :=
  (∀ d z p, Zlib d z → p <+: z → p ≠ z → (unZlib p).err = true) ∧ (∀ d z p, Gzip d z → p <+: z → p ≠ z → (unGzip p).err = true) ∧
    (∀ d z p, Zlib d z → p <+: z → p ≠ z → (utilUnZlib p).err = true) ∧
    ∀ d z p o ok split, Gzip d z → p <+: z → p ≠ z → gzipRead p = some (o, ok) → Compress.Reads ok o split → (utilUnGzip p split).err = true

/-- C244, the part for `compress.UnZlib`: wherever a stream is cut there is an error, and no data. -/
theorem C244_zlib_partial (d z p : Bytes) (h : Zlib d z) (hp : p <+: z) (hne : p ≠ z) : unZlib p = ⟨[], true⟩ := by
  refine (C241_else p).1 ?_
  rintro d' ⟨q, rest, rfl, hq⟩
  obtain ⟨t, rfl⟩ := hp
  have := (zlib_prefix (r := rest ++ t) (r' := []) hq h (by simp)).2
  have hl := congrArg List.length this
  simp only [List.length_append] at hl
  apply hne
  have hr : rest = [] := List.eq_nil_of_length_eq_zero (by omega)
  have ht : t = [] := List.eq_nil_of_length_eq_zero (by omega)
  rw [hr, ht]
  simp

/-- C244, the part for `compress.UnGzip`: a cut is noticed unless it is between two members. -/
theorem C244_gzip_partial (d p t : Bytes) (h : Gzip d (p ++ t)) (ht : t ≠ []) :
    (unGzip p).err = false ↔ ∃ d₁ d₂, d = d₁ ++ d₂ ∧ Gzip d₁ p ∧ Gzip d₂ t := by
  constructor
  · intro he
    have hp : unGzip p = ⟨(unGzip p).bytes, false⟩ := by rw [← he]
    have hG := (C241_gzip _ _).1 hp
    rcases gzip_split hG h with ⟨h1, _⟩ | ⟨d', h1, h2⟩
    · exact absurd h1 ht
    · exact ⟨_, d', h2, hG, h1⟩
  · rintro ⟨d₁, d₂, _, h1, _⟩
    rw [(C241_gzip _ _).2 h1]

/-- C244. One member that is cut off is an error. -/
theorem C244_member (d z p : Bytes) (h : Member d z) (hp : p <+: z) (hne : p ≠ z) : unGzip p = ⟨[], true⟩ := by
  refine (C241_else p).2 ?_
  intro d' hG
  obtain ⟨t, rfl⟩ := hp
  have ht : t ≠ [] := fun e => hne (by rw [e]; simp)
  generalize hw : p = w at hG
  cases hG with
  | one _ _ hm =>
    subst hw
    exact ht (member_prefix (t := t) (t' := []) hm h (by simp)).2.2
  | more d₁ d₂ m z₁ hm hz =>
    subst hw
    have := (member_prefix (t := z₁ ++ t) (t' := []) hm h (by simp)).2.2
    exact gzip_len hz (List.append_eq_nil_iff.1 this).1

/-- C244. `util.UnZlib` never says that a stream was cut off, once its header is there: it returns the data as far as it could be read, a beginning of all the data. -/
theorem C244_utilUnZlib (d z p : Bytes) (h : Zlib d z) (hp : p <+: z) : utilUnZlib p = ⟨[], true⟩ ∨ ∃ o, o <+: d ∧ utilUnZlib p = ⟨o, false⟩ := by
  obtain ⟨t, rfl⟩ := hp
  have hz := (zlibRead_iff (p ++ t) d).2 ⟨_, [], (List.append_nil _).symm, h⟩
  unfold utilUnZlib Compress.utilUnZlib reader
  simp only []
  cases hr : zlibRead p with
  | none => exact .inl rfl
  | some q =>
    obtain ⟨o, k⟩ := q
    obtain ⟨o', k', h1, h2⟩ := zlibRead_cut hr t
    rw [hz] at h1
    simp only [Option.some.injEq, Prod.mk.injEq] at h1
    exact .inr ⟨o, h1.1 ▸ h2, rfl⟩

/-- C244. The error is there only if the header is not. -/
theorem C244_utilUnZlib_header (p : Bytes) : (utilUnZlib p).err = true ↔ ¬ ∃ h r, p = h ++ r ∧ ZHead h := by
  unfold utilUnZlib Compress.utilUnZlib reader zlibRead
  simp only []
  cases hh : zlibHeader p with
  | none =>
    simp only [true_iff]
    rintro ⟨h, r, e, hz⟩
    rw [(zlibHeader_iff p r).2 ⟨h, e, hz⟩] at hh
    simp at hh
  | some r =>
    obtain ⟨h, e, hz⟩ := (zlibHeader_iff _ _).1 hh
    have hn : ¬ ¬ ∃ h r, p = h ++ r ∧ ZHead h := fun hn => hn ⟨h, r, e, hz⟩
    simp only [hn, iff_false]
    cases inflate r with
    | mk o q => cases q <;> simp

/-- C244. `util.UnZlib` does not look at the checksum: whatever follows the compressed data. -/
theorem C244_utilUnZlib_sum (d h z t : Bytes) (hh : ZHead h) (hz : Deflated d z) : utilUnZlib (h ++ (z ++ t)) = ⟨d, false⟩ := by
  unfold utilUnZlib Compress.utilUnZlib reader zlibRead
  simp only []
  rw [(zlibHeader_iff _ (z ++ t)).2 ⟨h, rfl, hh⟩]
  simp only []
  rw [(inflate_iff _ d t).2 ⟨z, rfl, hz⟩]

/-- C244. After a `Flush` all data can be read by `util.UnZlib`, and `compress.UnZlib` says that the end is missing. -/
theorem C244_flushed (d h z : Bytes) (hh : ZHead h) (hz : Flushed d z) : utilUnZlib (h ++ z) = ⟨d, false⟩ ∧ unZlib (h ++ z) = ⟨[], true⟩ := by
  unfold utilUnZlib Compress.utilUnZlib unZlib Compress.unZlib reader zlibRead
  simp only []
  rw [(zlibHeader_iff _ z).2 ⟨h, rfl, hh⟩]
  simp only []
  rw [flushed_read hz]
  exact ⟨rfl, rfl⟩

/-- C244. `util.UnGzip` of a file that is cut off: an error if the header is not there, else a beginning of the data without an error, in whatever pieces the reader gives it. -/
theorem C244_utilUnGzip (d z p o : Bytes) (ok : Bool) (split : List (Bytes × Compress.RErr)) (h : Gzip d z) (hp : p <+: z) (hr : gzipRead p = some (o, ok))
    (hs : Compress.Reads ok o split) : (utilUnGzip p split).err = false ∧ (utilUnGzip p split).bytes <+: d := by
  obtain ⟨t, rfl⟩ := hp
  obtain ⟨o', k', h1, h2⟩ := gzipRead_cut hr t
  rw [(gzipRead_iff _ _).2 h] at h1
  simp only [Option.some.injEq, Prod.mk.injEq] at h1
  unfold utilUnGzip Compress.utilUnGzip reader
  simp only [hr]
  exact ⟨trivial, (loop_prefix hs).trans (h1.1 ▸ h2)⟩

theorem abc_gzip : Gzip [97, 98, 99] [31, 139, 8, 0, 0, 0, 0, 0, 0, 255, 75, 76, 74, 6, 0, 194, 65, 36, 53, 3, 0, 0, 0] := (C241_gzip _ _).1 (by decide +kernel)

/-- C244 is false: a file of two members, cut between them, is the whole file of the first. -/
theorem C244_claim_false : ¬ C244_claim := by
  intro h
  have h1 := h.2.1 _ _ [31, 139, 8, 0, 0, 0, 0, 0, 0, 255, 75, 76, 74, 6, 0, 194, 65, 36, 53, 3, 0, 0, 0] (gzip_append abc_gzip abc_gzip) (List.prefix_append _ _) (by simp)
  rw [(C241_gzip _ _).2 abc_gzip] at h1
  simp at h1

/-- C244. Nor does `util.UnZlib` notice it: nine of the eleven bytes of the stream for "abc" give "abc", and six of them "ab". -/
theorem C244_utilUnZlib_silent : unZlib [120, 156, 75, 76, 74, 6, 0, 2, 77, 1, 39] = ⟨[97, 98, 99], false⟩ ∧ utilUnZlib [120, 156, 75, 76, 74, 6, 0, 2, 77] = ⟨[97, 98, 99], false⟩ ∧
    utilUnZlib [120, 156, 75, 76, 74] = ⟨[97, 98], false⟩ := by decide +kernel

/-- What `Flush` leaves after "abc". -/
example : utilUnZlib [120, 156, 74, 76, 74, 6, 0, 0, 0, 255, 255] = ⟨[97, 98, 99], false⟩ ∧ unZlib [120, 156, 74, 76, 74, 6, 0, 0, 0, 255, 255] = ⟨[], true⟩ := by decide +kernel

end Gofer.Props.Deflate
