import Verif.Proof.Json
/-!
# C198: `JsonEncode` and `JsonDecode`
-/
namespace Gofer.Props.Json
open Gofer.Json Gofer.Spec.Json

/-- The full claim: what goes through JSON comes back. -/
def C198_claim : Prop := ∀ (t : Ty) (v : Val t), WF t v → jsonDecode t (jsonEncode t v) = some v

/-- The string of the one byte FF comes back as the three bytes of U+FFFD; there is no error. -/
theorem C198_claim_false : ¬ C198_claim := by
  intro h
  have h1 := h .str [0xFF] trivial
  have h2 : jsonDecode .str (jsonEncode .str [0xFF]) = some [0xEF, 0xBF, 0xBD] := by decide +kernel
  rw [h2] at h1
  exact absurd h1 (by decide)

/-- Values whose strings are texts come back as they are. Missing: strings that are no texts (`C198_exact`) and more
than 10000 slices and maps in one another (`C198_depth`). -/
theorem C198_roundtrip_partial (t : Ty) (v : Val t) (h : WF t v) (ht : Texts t v) (hd : depth t ≤ 10000) :
    jsonDecode t (jsonEncode t v) = some v := by
  rw [decode_encode t v h hd, san_texts t v h ht]

example : WF (.map (.list .int)) (some [([97], some [1, -2]), ([195, 164], none)]) ∧
    Texts (.map (.list .int)) (some [([97], some [1, -2]), ([195, 164], none)]) ∧ depth (.map (.list .int)) ≤ 10000 := by
  refine ⟨?_, ?_, by decide⟩
  · intro l hl
    simp only [Option.some.injEq] at hl
    subst hl
    refine ⟨by decide, ?_⟩
    intro e he
    simp only [List.mem_cons, List.not_mem_nil, or_false] at he
    rcases he with rfl | rfl
    · intro l hl
      simp only [Option.some.injEq] at hl
      subst hl
      intro x hx
      simp only [List.mem_cons, List.not_mem_nil, or_false] at hx
      rcases hx with rfl | rfl <;> exact ⟨by decide, by decide⟩
    · intro l hl; simp at hl
  · intro l hl
    simp only [Option.some.injEq] at hl
    subst hl
    intro e he
    simp only [List.mem_cons, List.not_mem_nil, or_false] at he
    rcases he with rfl | rfl
    · exact ⟨.cons 97 [] (Or.inl (by decide)) .nil, fun l _ x _ => trivial⟩
    · exact ⟨.cons 0xE4 [] (Or.inl (by decide)) .nil, fun l _ x _ => trivial⟩

/-- What comes back in every case: the value with every byte that begins no character replaced by U+FFFD, and this is
all that comes back. -/
theorem C198_exact (t : Ty) (v : Val t) (h : WF t v) (hd : depth t ≤ 10000) (w : Val t) :
    jsonDecode t (jsonEncode t v) = some w ↔ Repaired t v w := by
  rw [decode_encode t v h hd]
  constructor
  · intro e
    rw [← Option.some.inj e]
    exact repaired_san t v
  · intro e
    rw [repaired_unique t v w e]

/-- Two keys become one, and the entry of the first is lost: the map `{"\xfe": 1, "\xff": 2}` comes back as
`{"�": 2}`. -/
theorem C198_keys : jsonDecode (.map .int) (jsonEncode (.map .int) (some [([0xFE], 1), ([0xFF], 2)])) =
    some (some [([0xEF, 0xBF, 0xBD], 2)]) := by decide +kernel

/-- The second time nothing is changed any more. -/
theorem C198_stable (t : Ty) (v w : Val t) (h : WF t v) (hd : depth t ≤ 10000)
    (e : jsonDecode t (jsonEncode t v) = some w) : jsonDecode t (jsonEncode t w) = some w := by
  rw [decode_encode t v h hd] at e
  rw [← Option.some.inj e]
  obtain ⟨h1, h2⟩ := texts_san t v h
  exact C198_roundtrip_partial t _ h1 h2 hd

/-- Slices in one another: `n + 1` of them, the innermost empty. -/
def deepT : Nat → Ty
  | 0 => .list .bool
  | n + 1 => .list (deepT n)

def deepV : (n : Nat) → Val (deepT n)
  | 0 => some ([] : List Bool)
  | n + 1 => some [deepV n]

theorem deep_encode (n : Nat) : jsonEncode (deepT n) (deepV n) = List.replicate (n + 1) 91 ++ List.replicate (n + 1) 93 := by
  induction n with
  | zero => rfl
  | succ n ih =>
    show 91 :: (jsonEncode (deepT n) (deepV n) ++ [93]) = _
    rw [ih, List.append_assoc, ← List.replicate_succ' , List.replicate_succ (n := n + 1) (a := (91 : UInt8))]
    rfl

/-- More than 10000 slices in one another are written without complaint and cannot be read. -/
theorem C198_depth (n : Nat) (h : 10000 ≤ n) : jsonDecode (deepT n) (jsonEncode (deepT n) (deepV n)) = none := by
  rw [deep_encode]
  unfold jsonDecode
  rw [too_deep n _ 0 _ (by show 10000 ≤ 0 + n; omega)]
  rfl

example : ∃ n, 10000 ≤ n := ⟨10000, le_refl _⟩

/-- Different values of texts have different documents. -/
theorem C198_injective (t : Ty) (v w : Val t) (hv : WF t v) (hw : WF t w) (tv : Texts t v) (tw : Texts t w)
    (hd : depth t ≤ 10000) (e : jsonEncode t v = jsonEncode t w) : v = w := by
  have h1 := C198_roundtrip_partial t v hv tv hd
  rw [e, C198_roundtrip_partial t w hw tw hd] at h1
  exact (Option.some.inj h1).symm

/-- The document is a text without control bytes and without `<`, `>` and `&`, whatever the strings hold: it can be
put into one line, and into a page. -/
theorem C198_plain (t : Ty) (v : Val t) :
    Text (jsonEncode t v) ∧ ∀ b ∈ jsonEncode t v, 32 ≤ b.toNat ∧ b ≠ 60 ∧ b ≠ 62 ∧ b ≠ 38 :=
  ⟨text_encode t v, plain_encode t v⟩

/-- A nil slice and an empty one, a nil map and an empty one, are kept apart. -/
theorem C198_nil (t : Ty) : jsonEncode (.list t) none ≠ jsonEncode (.list t) (some []) ∧
    jsonEncode (.map t) none ≠ jsonEncode (.map t) (some []) := by
  constructor
  · show ([110, 117, 108, 108] : Bytes) ≠ [91, 93]
    decide
  · show ([110, 117, 108, 108] : Bytes) ≠ [123, 125]
    decide

end Gofer.Props.Json
