import Verif.Proof.JsonRead
import Verif.Props.Json
/-!
# C199: the documents that `JsonDecode` reads
-/
namespace Gofer.Props.JsonDoc
open Gofer.Json Gofer.Spec.Json

/-- `JsonDecode` gives the value `v` exactly for the documents that stand for `v`, with white space around them: it
reads what any other writer writes (white space, escapes of any kind, any order of the members), and refuses all
else. -/
theorem C199_reads (t : Ty) (hd : depth t ≤ 10000) (bs : Bytes) (v : Val t) :
    jsonDecode t bs = some v ↔ ∃ w d w', bs = w ++ (d ++ w') ∧ Space w ∧ Space w' ∧ Doc t v d := by
  constructor
  · exact decode_doc t v bs
  · rintro ⟨w, d, w', rfl, hw, hw', h⟩
    exact read_doc t v d w w' h hw hw' hd

/-- The document ` [ "ä" , "😀" ] ` stands for `["ä", "😀"]`. -/
theorem doc_example : Doc (.list .str) (some [[0xC3, 0xA4], [0xF0, 0x9F, 0x98, 0x80]])
    (91 :: (32 :: (34 :: (92 :: 117 :: [48, 48, 69, 52] ++ [34])) ++ 32 :: 44 :: (34 :: (92 :: 117 :: [100, 56, 51, 100] ++
      92 :: 117 :: [100, 101, 48, 48] ++ [34])) ++ [93])) := by
  refine Or.inl ⟨_, 32 :: (34 :: (92 :: 117 :: [48, 48, 69, 52] ++ [34])) ++ 32 :: 44 :: (34 :: (92 :: 117 :: [100, 56, 51, 100] ++
      92 :: 117 :: [100, 101, 48, 48] ++ [34])), rfl, ?_, rfl⟩
  have s1 : Space [32] := by intro b hb; simp at hb; tauto
  have s0 : Space [] := by intro b hb; simp at hb
  have h1 : Hex4 [48, 48, 69, 52] 0xE4 :=
    .mk 48 48 69 52 0 0 14 4 (by simp [Hex]) (by simp [Hex]) (by simp [Hex]) (by simp [Hex])
  have h2 : Hex4 [100, 56, 51, 100] 0xD83D :=
    .mk 100 56 51 100 13 8 3 13 (by simp [Hex]) (by simp [Hex]) (by simp [Hex]) (by simp [Hex])
  have h3 : Hex4 [100, 101, 48, 48] 0xDE00 :=
    .mk 100 101 48 48 13 14 0 0 (by simp [Hex]) (by simp [Hex]) (by simp [Hex]) (by simp [Hex])
  refine Items.more [32] [32] (34 :: (92 :: 117 :: [48, 48, 69, 52] ++ [34])) (34 :: (92 :: 117 :: [100, 56, 51, 100] ++
      92 :: 117 :: [100, 101, 48, 48] ++ [34])) _ _ [] s1 s1 ?_ ?_
  · exact Or.inl ⟨_, .u _ 0xE4 [] [] h1 (by unfold Surrogate; decide) .nil, rfl⟩
  · refine Items.one [] [] (34 :: (92 :: 117 :: [100, 56, 51, 100] ++ 92 :: 117 :: [100, 101, 48, 48] ++ [34])) _ s0 s0 ?_
    exact Or.inl ⟨_, .pair _ _ 0x1F600 [] [] (by decide) (by decide) h2 h3 .nil, rfl⟩

example : ∃ bs, jsonDecode (.list .str) bs = some (some [[0xC3, 0xA4], [0xF0, 0x9F, 0x98, 0x80]]) :=
  ⟨_, (C199_reads (.list .str) (by decide) _ _).2 ⟨[], _, [], rfl, by intro b hb; simp at hb, by intro b hb; simp at hb,
    doc_example⟩⟩

/-- A document stands for one value only. -/
theorem C199_unique (t : Ty) (hd : depth t ≤ 10000) (d : Bytes) (v w : Val t) (hv : Doc t v d) (hw : Doc t w d) : v = w := by
  have s0 : Space [] := by intro b hb; simp at hb
  have h1 := read_doc t v d [] [] hv s0 s0 hd
  have h2 := read_doc t w d [] [] hw s0 s0 hd
  rw [h1] at h2
  exact Option.some.inj h2

/-- What `JsonEncode` writes stands for the value, if its strings are texts: any reader that keeps to the standard gets
the value. -/
theorem C199_writes (t : Ty) (v : Val t) (h : WF t v) (ht : Texts t v) (hd : depth t ≤ 10000) :
    Doc t v (jsonEncode t v) := by
  obtain ⟨w, d, w', h1, h2, h3, h4⟩ := decode_doc t v _ (Gofer.Props.Json.C198_roundtrip_partial t v h ht hd)
  have first : w = [] := by
    match w with
    | [] => rfl
    | b :: w =>
      obtain ⟨b', l, e1, e2⟩ := encode_head t v h
      rw [e1] at h1
      simp only [List.cons_append, List.cons.injEq] at h1
      have := (space_iff b).2 (h2 b (by simp))
      rw [← h1.1, e2.2.2] at this
      exact absurd this (by decide)
  subst first
  have last : w' = [] := by
    match w' with
    | [] => rfl
    | b :: w' =>
      exfalso
      obtain ⟨f, e1, e2⟩ : ∃ x, (jsonEncode t v).getLast? = some x ∧ isSpace x = false := encode_last t v h
      rw [h1] at e1
      simp only [List.nil_append] at e1
      have hne : b :: w' ≠ [] := by simp
      rw [List.getLast?_append_of_ne_nil _ hne, List.getLast?_eq_some_getLast hne] at e1
      simp only [Option.some.injEq] at e1
      have := (space_iff f).2 (h3 f (by rw [← e1]; exact List.getLast_mem hne))
      rw [e2] at this
      exact absurd this (by decide)
  subst last
  simp only [List.nil_append, List.append_nil] at h1
  rw [h1]
  exact h4

/-- null is read as the zero value of every type, without an error: `false`, 0, the empty string, nil. -/
theorem C199_null : jsonDecode .bool [110, 117, 108, 108] = some false ∧ jsonDecode .int [110, 117, 108, 108] = some (0 : Int) ∧
    jsonDecode .str [110, 117, 108, 108] = some [] ∧ (∀ t, depth t < 10000 → jsonDecode (.list t) [110, 117, 108, 108] = some none ∧
      jsonDecode (.map t) [110, 117, 108, 108] = some none) := by
  refine ⟨by decide +kernel, by decide +kernel, by decide +kernel, fun t ht => ?_⟩
  have s0 : Space [] := by intro b hb; simp at hb
  exact ⟨read_doc (.list t) none _ [] [] (Or.inr ⟨rfl, rfl⟩) s0 s0 ht,
    read_doc (.map t) none _ [] [] (Or.inr ⟨rfl, rfl⟩) s0 s0 ht⟩

/-- Of members with the same key the last one counts: `{"a":1,"a":2}`. -/
theorem C199_last : jsonDecode (.map .int) [123, 34, 97, 34, 58, 49, 44, 34, 97, 34, 58, 50, 125] = some (some [([97], 2)]) := by
  decide +kernel

/-- A document need not be a text: a byte that begins no character is accepted, and so is half of a pair of
surrogates, and both are read as U+FFFD. -/
theorem C199_liberal : jsonDecode .str [34, 0xFF, 34] = some [0xEF, 0xBF, 0xBD] ∧
    jsonDecode .str [34, 92, 117, 100, 56, 51, 100, 34] = some [0xEF, 0xBF, 0xBD] := by
  decide +kernel

/-- Numbers: no leading zero, no plus, no fraction, no exponent, even if the number is whole: `01`, `+1`, `1.0`, `1e2` are
refused; `-0` is 0. Out of range is refused. -/
theorem C199_numbers : jsonDecode .int [48, 49] = none ∧ jsonDecode .int [43, 49] = none ∧
    jsonDecode .int [49, 46, 48] = none ∧ jsonDecode .int [49, 101, 50] = none ∧ jsonDecode .int [45, 48] = some (0 : Int) ∧
    jsonDecode .int [57, 50, 50, 51, 51, 55, 50, 48, 51, 54, 56, 53, 52, 55, 55, 53, 56, 48, 56] = none ∧
    jsonDecode .int [45, 57, 50, 50, 51, 51, 55, 50, 48, 51, 54, 56, 53, 52, 55, 55, 53, 56, 48, 56] =
      some (-9223372036854775808 : Int) := by
  decide +kernel

end Gofer.Props.JsonDoc
