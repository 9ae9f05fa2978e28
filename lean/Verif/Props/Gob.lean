import Verif.Proof.GobCut

/-!
# Properties of `Encode` and `Decode` (util/gob.go)

`l` is what the library writes for types; `Lib.Lawful` is all that is assumed of it.
-/
namespace Gofer.Props.Gob
open Gofer.Gob Gofer.Spec.Gob Gofer.GobStream

/-! ## C207: what is decoded is what was encoded -/

/-- C207 at full strength: what was encoded without error comes back as it was. -/
def C207_claim (l : Lib) : Prop :=
  ∀ (t : Ty) (v : t.Val) (bs : List UInt8), Exists t v → encode l t v = .done bs false → decode l t bs = some v

/-- C207, as far as it holds: a value comes back as `back` says, even with other bytes behind it. -/
theorem C207_exact_partial (l : Lib) (hl : l.Lawful) (t : Ty) (v : t.Val) (bs : List UInt8) (he : Exists t v)
    (h : encode l t v = .done bs false) (r : List UInt8) : decode l t (bs ++ r) = some (back t v) := by
  by_cases hn : nilPtr t v = true
  · unfold encode at h
    rw [if_pos hn] at h
    simp at h
  · rcases encode_cases l t v (by simpa using hn) with ⟨b, h1, h2, h3⟩ | ⟨_, h3⟩
    · rw [h3] at h
      obtain rfl : definitions l t ++ message b = bs := by simpa using h
      exact decode_body l hl t v b r he h1 h2
    · rw [h3] at h
      simp at h

/-- C207: the values that come back unchanged are exactly the plain ones. -/
theorem C207_unchanged_partial (l : Lib) (hl : l.Lawful) (t : Ty) (v : t.Val) (bs : List UInt8) (he : Exists t v)
    (h : encode l t v = .done bs false) : decode l t bs = some v ↔ Plain t v := by
  have := C207_exact_partial l hl t v bs he h []
  rw [List.append_nil] at this
  rw [this, Option.some.injEq, back_eq_iff]

/-- C207: whatever came back comes back unchanged from then on. -/
theorem C207_again (l : Lib) (hl : l.Lawful) (t : Ty) (v w : t.Val) (bs bs' : List UInt8) (he : Exists t v)
    (h : encode l t v = .done bs false) (hd : decode l t bs = some w) (h' : encode l t w = .done bs' false) :
    decode l t bs' = some w := by
  have := C207_exact_partial l hl t v bs he h []
  rw [List.append_nil, hd, Option.some.injEq] at this
  subst this
  exact (C207_unchanged_partial l hl t (back t v) bs' (exists_back t v he) h').2 (plain_back t v)

/-- C207 at full strength is false whatever the library writes for types: an empty slice comes back nil. -/
theorem C207_claim_false (l : Lib) (hl : l.Lawful) : ¬ C207_claim l := by
  intro h
  have hb : body l (.slice .int) (some [] : Option (List (BitVec 64))) = some (putInt (l.id (.slice .int)) ++ [0] ++ ([0] ++ [])) := rfl
  have hs : (putInt (l.id (.slice .int)) ++ [0] ++ ([0] ++ [])).length < tooBig := by
    have := putInt_len (l.id (.slice .int))
    have e : tooBig = 2 ^ 33 := rfl
    rw [e]
    simp only [List.length_append, List.length_cons, List.length_nil]
    omega
  rcases encode_cases l (.slice .int) (some [] : Option (List (BitVec 64))) rfl with ⟨b, h1, h2, h3⟩ | ⟨h1, _⟩
  · have he : Exists (.slice .int) (some [] : Option (List (BitVec 64))) := by
      show ∀ l, (some [] : Option (List (BitVec 64))) = some l → l.length < 2 ^ 63 ∧ ∀ x ∈ l, Exists .int x
      rintro l hl
      obtain rfl := Option.some.inj hl
      simp
    have h4 := (C207_unchanged_partial l hl _ _ _ he h3).1 (h _ _ _ he h3)
    exact h4.1 rfl
  · rw [hb] at h1
    rcases h1 with h1 | ⟨b, h1, h2⟩
    · simp at h1
    · obtain rfl := Option.some.inj h1
      omega

/-- The type of the example in the documentation of the library: `type Point struct { X, Y int }`. -/
abbrev point : Ty := .struct (.cons .int (.cons .int .nil))

/-- What the library writes before a `Point` (the example in its documentation), and nothing for other types. -/
def sample : Lib where
  id
    | .struct _ => 65
    | _ => 2
  defs
    | .struct _ => [(-65#64, [3, 1, 1, 5, 80, 111, 105, 110, 116, 1, 255, 130, 0, 1, 2, 1, 1, 88, 1, 4, 0, 1, 1, 89, 1, 4, 0, 0, 0])]
    | _ => []
  fits _ _ _ := true

theorem sample_lawful : sample.Lawful where
  id_pos t := by cases t <;> simp only [sample] <;> decide
  defs_neg t := by cases t <;> simp only [sample] <;> decide
  defs_len t := by cases t <;> simp [sample]
  fits_own _ := rfl

-- The examples in the documentation of the library: the integer 3 and Point{22, 33}, byte by byte; and back.
example : encode sample .int (3 : BitVec 64) = .done [3, 4, 0, 6] false := by decide +kernel
example : encode sample point ((22 : BitVec 64), (33 : BitVec 64), ()) = .done
    [31, 255, 129, 3, 1, 1, 5, 80, 111, 105, 110, 116, 1, 255, 130, 0, 1, 2, 1, 1, 88, 1, 4, 0, 1, 1, 89, 1, 4, 0, 0, 0,
      7, 255, 130, 1, 44, 1, 66, 0] false := by decide +kernel
example : Exists point ((22 : BitVec 64), (33 : BitVec 64), ()) := ⟨by decide, trivial, trivial, trivial⟩
example : Plain .int (3 : BitVec 64) := trivial

-- A pointer to 0 in a field comes back nil: both are written alike.
example : encode sample (.struct (.cons (.ptr .int) .nil)) ((some 0 : Option (BitVec 64)), ()) =
    encode sample (.struct (.cons (.ptr .int) .nil)) ((none : Option (BitVec 64)), ()) := by decide +kernel

/-! ## C208: what cannot be encoded, and what is not decoded -/

/-- C208: `Encode` panics exactly on nil pointers. -/
theorem C208_panic (l : Lib) (t : Ty) (v : t.Val) : encode l t v = .panic ↔ nilPtr t v = true := by
  by_cases hn : nilPtr t v = true
  · unfold encode
    simp [hn]
  · rcases encode_cases l t v (by simpa using hn) with ⟨_, _, _, h⟩ | ⟨_, h⟩ <;> simp [h, hn]

/-- C208: `Encode` returns an error exactly for a nil pointer within a slice or map and for messages of 2^33 bytes and more; the
bytes it returns with the error are what precedes the value, and not decoded as anything. -/
theorem C208_error (l : Lib) (hl : l.Lawful) (t : Ty) (v : t.Val) (bs : List UInt8) (h : encode l t v = .done bs true) :
    (NilElement t v ∨ ∃ b, body l t v = some b ∧ 2 ^ 33 ≤ b.length) ∧ ∀ t', decode l t' bs = none := by
  have hn : nilPtr t v = false := by
    cases hp : nilPtr t v with
    | false => rfl
    | true =>
      rw [(C208_panic l t v).2 hp] at h
      simp at h
  rcases encode_cases l t v hn with ⟨b, _, _, h3⟩ | ⟨h1, h3⟩
  · rw [h3] at h
    simp at h
  · rw [h3] at h
    obtain rfl : definitions l t = bs := by simpa using h
    refine ⟨?_, fun t' => ?_⟩
    · rw [body_none] at h1
      rcases h1 with (h1 | h1) | h1
      · rw [hn] at h1
        simp at h1
      · exact Or.inl h1
      · exact Or.inr h1
    · exact decode_cut l hl t t' [] _ (by decide) ⟨message [], message_ne [], rfl⟩

/-- C208: a nil pointer within a slice or map is always an error (or a panic for a nil pointer to it). -/
theorem C208_nil_element (l : Lib) (t : Ty) (v : t.Val) (hn : nilPtr t v = false) (h : NilElement t v) :
    ∃ bs, encode l t v = .done bs true := by
  rcases encode_cases l t v hn with ⟨b, h1, _, _⟩ | ⟨_, h3⟩
  · rw [(body_none l t v).2 (Or.inr h)] at h1
    simp at h1
  · exact ⟨_, h3⟩

/-- C208: of everything else `Encode` makes bytes without error. -/
theorem C208_succeeds (l : Lib) (t : Ty) (v : t.Val) (hn : nilPtr t v = false) (h : ¬ NilElement t v) :
    ∃ b, body l t v = some b ∧ (b.length < 2 ^ 33 → encode l t v = .done (definitions l t ++ message b) false) := by
  rcases encode_cases l t v hn with ⟨b, h1, _, h3⟩ | ⟨h1 | ⟨b, h1, h2⟩, _⟩
  · exact ⟨b, h1, fun _ => h3⟩
  · rw [body_none] at h1
    exact absurd h1 (by simp [hn, h])
  · exact ⟨b, h1, fun h3 => absurd h2 (Nat.not_le.2 h3)⟩

/-- C208: bytes cut short anywhere are an error for every type. -/
theorem C208_truncated (l : Lib) (hl : l.Lawful) (t t' : Ty) (v : t.Val) (bs : List UInt8) (h : encode l t v = .done bs false)
    (n : Nat) (hc : n < bs.length) : decode l t' (bs.take n) = none := by
  have hn : nilPtr t v = false := by
    cases hp : nilPtr t v with
    | false => rfl
    | true =>
      rw [(C208_panic l t v).2 hp] at h
      simp at h
  rcases encode_cases l t v hn with ⟨b, _, h2, h3⟩ | ⟨_, h3⟩
  · rw [h3] at h
    obtain rfl : definitions l t ++ message b = bs := by simpa using h
    refine decode_cut l hl t t' b _ h2 ⟨(definitions l t ++ message b).drop n, ?_, (List.take_append_drop _ _).symm⟩
    intro h0
    have := congrArg List.length h0
    rw [List.length_drop, List.length_nil] at this
    omega
  · rw [h3] at h
    simp at h

/-- C208: nor does it help to shorten the message, whose length is written before it: a value of a type without structs cut short
anywhere is an error. (Where the message ends, a struct ends: see the `Point` below, whose second field is lost.) -/
theorem C208_value_cut (l : Lib) (hl : l.Lawful) (t : Ty) (hns : NoStruct t) (v : t.Val) (b r : List UInt8) (he : Exists t v) (hb : body l t v = some b)
    (hs : b.length < 2 ^ 33) (n : Nat) (hn : n < b.length) :
    encode l t v = .done (definitions l t ++ message b) false ∧ decode l t (definitions l t ++ message (b.take n) ++ r) = none := by
  cases hp : nilPtr t v with
  | true =>
    rw [(body_none l t v).2 (Or.inl hp)] at hb
    simp at hb
  | false =>
    refine ⟨?_, GobCut.decode_short l hl t hns v b _ r he hb hs ⟨b.drop n, ?_, (List.take_append_drop _ _).symm⟩⟩
    · rcases encode_cases l t v hp with ⟨b', h1, _, h3⟩ | ⟨h1 | ⟨b', h1, h2⟩, _⟩
      · rw [hb] at h1
        obtain rfl := Option.some.inj h1
        exact h3
      · rw [hb] at h1
        simp at h1
      · rw [hb] at h1
        obtain rfl := Option.some.inj h1
        exact absurd h2 (Nat.not_le.2 hs)
    · intro h0
      have := congrArg List.length h0
      rw [List.length_drop, List.length_nil] at this
      omega

-- The string "hi" and what is refused.
example : body sample .str ([104, 105] : List UInt8) = some [4, 0, 2, 104, 105] ∧ decode sample .str [5, 4, 0, 2, 104, 105] = some ([104, 105] : List UInt8) ∧
    decode sample .str [4, 4, 0, 2, 104] = none := ⟨rfl, rfl, rfl⟩

-- Point{22, 33} in a shorter message is Point{22, 0}.
example : body sample point ((22 : BitVec 64), (33 : BitVec 64), ()) = some [255, 130, 1, 44, 1, 66, 0] ∧
    decode sample point [4, 255, 130, 1, 44] = some ((22 : BitVec 64), (0 : BitVec 64), ()) := ⟨rfl, rfl⟩

-- A third field of a Point; a value of another form where a zero is expected.
example : decode sample point [7, 255, 130, 1, 44, 1, 66, 1, 2, 0] = none ∧ decode sample .int [3, 4, 1, 6] = none := ⟨rfl, rfl⟩

-- nil; []*int{nil}; a Point cut short.
example : encode sample (.ptr .int) (none : Option (BitVec 64)) = .panic := by decide +kernel
example : encode sample (.slice (.ptr .int)) (some [none] : Option (List (Option (BitVec 64)))) = .done [] true := by decide +kernel
example : NilElement (.slice (.ptr .int)) (some [none] : Option (List (Option (BitVec 64)))) := ⟨[none], rfl, none, List.mem_cons_self, Or.inl rfl⟩
example : ¬ NilElement point ((22 : BitVec 64), (33 : BitVec 64), ()) := fun h => h.elim (fun h => h.elim) (fun h => h.elim (fun h => h.elim) id)

end Gofer.Props.Gob
