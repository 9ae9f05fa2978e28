import Verif.Proof.ProtoBad

/-!
# Protocol buffers (util/protobuf.go)
-/
namespace Gofer.Props.Proto
open Gofer.Spec.Proto Gofer.Proto

/-! ### C215 -/

/-- A message whose strings are UTF-8 comes back from its bytes. -/
theorem C215_back (T : Schema) (hT : Legal T) (d t : Nat) (m : Msg d) (hm : Ok T d t m) (hx : Texts T d t m)
    (hs : size T d t m < 2 ^ 63) : unmarshal T d t (marshal T d t m) = some m := by
  have hf := ok_texts_fit T d t m hm hx
  rw [marshal_full T d t m hf, unmarshal,
    dec_full T hT d t _ m hf (Nat.lt_trans hs (by decide)) (empty_fit T true d t), merge_empty T true d t m hf]

/-- A message with another string gives bytes that every reader refuses, however many levels it allows. -/
theorem C215_refused (T : Schema) (hT : Legal T) (d d' t : Nat) (m : Msg d) (hm : Ok T d t m) (hx : ¬ Texts T d t m)
    (hs : size T d t m < 2 ^ 63) : unmarshal T d' t (marshal T d t m) = none := by
  have hf := ok_fit T d t m hm
  refine dec_bad T hT d d' t _ m hf (Nat.lt_trans hs (by decide)) ?_ (empty_fit T true d' t)
  cases e : (enc T d true t m).2 with
  | false => rfl
  | true => exact absurd (fit_texts T d t m (enc_fit T hT d t m hf e)) hx

/-- `Unmarshal` of what `Marshal` gives is the message itself or an error, never another message. -/
theorem C215_never_another (T : Schema) (hT : Legal T) (d t : Nat) (m m' : Msg d) (hm : Ok T d t m)
    (hs : size T d t m < 2 ^ 63) (h : unmarshal T d t (marshal T d t m) = some m') : m' = m ∧ Texts T d t m := by
  by_cases hx : Texts T d t m
  · rw [C215_back T hT d t m hm hx hs] at h
    exact ⟨(Option.some.inj h).symm, hx⟩
  · rw [C215_refused T hT d d t m hm hx hs] at h
    cases h

/-- Different messages give different bytes. -/
theorem C215_different (T : Schema) (hT : Legal T) (d t : Nat) (m m' : Msg d) (hm : Ok T d t m) (hm' : Ok T d t m')
    (hx : Texts T d t m) (hs : size T d t m < 2 ^ 63) (hs' : size T d t m' < 2 ^ 63) (hne : m ≠ m') :
    marshal T d t m ≠ marshal T d t m' := by
  intro e
  have h := C215_back T hT d t m hm hx hs
  rw [e] at h
  exact hne (C215_never_another T hT d t m' m hm' hs' h).1

/-- Whatever was read is written such that it is read again as the same message: also the fields that the program
does not know, groups among them. -/
theorem C215_again (T : Schema) (hT : Legal T) (d t : Nat) (bs : Bytes) (m : Msg d) (h : unmarshal T d t bs = some m)
    (hs : size T d t m < 2 ^ 63) : unmarshal T d t (marshal T d t m) = some m := by
  have hf := dec_fit T hT d t _ m bs (empty_fit T true d t) h
  rw [marshal_full T d t m hf, unmarshal,
    dec_full T hT d t _ m hf (Nat.lt_trans hs (by decide)) (empty_fit T true d t), merge_empty T true d t m hf]

/-- A message with more levels than the reader allows is refused; the library allows 10000 (`d' = 9999`). -/
theorem C215_deep (T : Schema) (hT : Legal T) (d d' t : Nat) (m : Msg d) (hm : Ok T d t m)
    (hr : Reaches (d' + 1) d m) (hs : size T d t m < 2 ^ 63) : unmarshal T d' t (marshal T d t m) = none := by
  by_cases hx : Texts T d t m
  · have hf := ok_texts_fit T d t m hm hx
    rw [marshal_full T d t m hf]
    exact dec_deep T hT d' d t _ m hf (Nat.lt_trans hs (by decide)) hr (empty_fit T true d' t)
  · exact C215_refused T hT d d' t m hm hx hs

/-! #### a schema -/

/-- Type 0 has a number, a name, a child of its own type, packed numbers and byte strings. -/
def Ex.T : Schema := fun t =>
  if t = 0 then
    [⟨1, .varint .sint32, .implicit⟩, ⟨2, .string, .optional⟩, ⟨3, .msg 0, .optional⟩, ⟨4, .varint .int64, .packed⟩,
      ⟨5, .bytes, .repeated⟩]
  else []

theorem Ex.legal : Legal Ex.T := by
  intro t
  unfold Ex.T
  split
  · refine ⟨by decide, ?_⟩
    intro f hf
    simp only [List.mem_cons, List.not_mem_nil, or_false] at hf
    rcases hf with rfl | rfl | rfl | rfl | rfl <;> simp [Field.Legal]
  · simp

/-- The child: -3, no name, no child, the numbers 300 and -1, and field 9 that the program does not know. -/
def Ex.child : Msg 0 := ⟨[[.num (-3)], [], [], [.num 300, .num (-1)], []], [72, 1]⟩

/-- The parent: named "é", with two byte strings, one of them empty. -/
def Ex.parent : Msg 1 := (⟨[[], [.str [0xC3, 0xA9]], [.msg Ex.child], [], [.str [], .str [0xFF]]], []⟩ : Body (Msg 0))

theorem Ex.child_ok : Ok Ex.T 0 0 Ex.child := by
  refine ⟨?_, [[72, 1]], ?_, rfl⟩
  · refine .cons ⟨?_, ?_⟩ (.cons ?_ (.cons ?_ (.cons ⟨?_, trivial⟩ (.cons ?_ .nil))))
    · intro v hv
      have : v = .num (-3) := by simpa using hv
      subst this
      show (-3 : BitVec 64) = ((-3 : BitVec 64).setWidth 32).signExtend 64
      decide
    · refine ⟨by decide, ?_⟩
      intro v hv
      have : v = .num (-3) := by simpa using hv
      subst this
      exact (by decide : ¬ ((-3 : BitVec 64) = 0))
    · exact ⟨(by intro v hv; simp at hv), by decide⟩
    · exact ⟨(by intro v hv; simp at hv), by decide⟩
    · intro v hv
      simp only [List.mem_cons, List.not_mem_nil, or_false] at hv
      rcases hv with rfl | rfl <;> trivial
    · exact ⟨(by intro v hv; simp at hv), trivial⟩
  · intro u hu
    have : u = [72, 1] := by simpa using hu
    subst this
    refine ⟨9, 0, [72], [1], by decide, by decide, Varint.last 72 (by decide), ?_, .varint 1 [1] (Varint.last 1 (by decide))
      (by decide) (by decide), ?_, rfl⟩
    · intro tag' h
      have : tag' ≠ [] := by
        intro e; subst e; generalize 8 * 9 + 0 = n at h; cases h
      exact List.length_pos_iff.mpr this
    · intro f hf
      simp only [Ex.T, if_pos, List.mem_cons, List.not_mem_nil, or_false] at hf
      rcases hf with rfl | rfl | rfl | rfl | rfl <;> simp

theorem Ex.parent_ok : Ok Ex.T 1 0 Ex.parent := by
  refine ⟨?_, [], by simp, rfl⟩
  refine .cons ?_ (.cons ⟨?_, by decide⟩ (.cons ⟨?_, by decide⟩ (.cons ?_ (.cons ⟨?_, trivial⟩ .nil))))
  · exact ⟨(by intro v hv; simp at hv), by decide, (by intro v hv; simp at hv)⟩
  · intro v hv
    have : v = .str [0xC3, 0xA9] := by simpa using hv
    subst this
    trivial
  · intro v hv
    have : v = .msg Ex.child := by simpa using hv
    subst this
    exact Ex.child_ok
  · exact ⟨(by intro v hv; simp at hv), trivial⟩
  · intro v hv
    simp only [List.mem_cons, List.not_mem_nil, or_false] at hv
    rcases hv with rfl | rfl <;> trivial

theorem Ex.parent_texts : Texts Ex.T 1 0 Ex.parent := by
  apply fit_texts
  refine enc_fit Ex.T Ex.legal 1 0 Ex.parent (ok_fit _ _ _ _ Ex.parent_ok) ?_
  decide +kernel

theorem Ex.parent_size : size Ex.T 1 0 Ex.parent = 29 := by decide +kernel

/-- The bytes of the parent; they give the parent again. -/
example : marshal Ex.T 1 0 Ex.parent =
    [18, 2, 0xC3, 0xA9, 26, 18, 8, 5, 34, 12, 0xAC, 2, 0xFF, 0xFF, 0xFF, 0xFF, 0xFF, 0xFF, 0xFF, 0xFF, 0xFF, 1, 72, 1, 42, 0,
      42, 1, 0xFF] := by decide +kernel

example : unmarshal Ex.T 1 0 (marshal Ex.T 1 0 Ex.parent) = some Ex.parent :=
  C215_back Ex.T Ex.legal 1 0 Ex.parent Ex.parent_ok Ex.parent_texts (by rw [Ex.parent_size]; decide)

/-- Refused by a reader that allows no messages within messages. -/
example : unmarshal Ex.T 0 0 (marshal Ex.T 1 0 Ex.parent) = none :=
  C215_deep Ex.T Ex.legal 1 0 0 Ex.parent Ex.parent_ok
    ⟨[.msg Ex.child], by simp [Ex.parent], .msg Ex.child, by simp, Ex.child, rfl, trivial⟩ (by rw [Ex.parent_size]; decide)

/-- Read from bytes with a group (field 7) that the program does not know; again the same. -/
example : ∃ m, unmarshal Ex.T 0 0 [8, 5, 59, 8, 1, 60, 8, 7] = some m ∧ unmarshal Ex.T 0 0 (marshal Ex.T 0 0 m) = some m :=
  ⟨(⟨[[.num (-4)], [], [], [], []], [59, 8, 1, 60]⟩ : Body Empty), by rfl,
    C215_again Ex.T Ex.legal 0 0 [8, 5, 59, 8, 1, 60, 8, 7] _ (by rfl) (by decide +kernel)⟩

/-- A name that is not UTF-8. -/
def Ex.bad : Msg 0 := ⟨[[], [.str [0xFF]], [], [], []], []⟩

theorem Ex.bad_ok : Ok Ex.T 0 0 Ex.bad := by
  refine ⟨?_, [], by simp, rfl⟩
  refine .cons ?_ (.cons ⟨?_, by decide⟩ (.cons ?_ (.cons ?_ (.cons ?_ .nil))))
  · exact ⟨(by intro v hv; simp at hv), by decide, (by intro v hv; simp at hv)⟩
  · intro v hv
    have : v = .str [0xFF] := by simpa using hv
    subst this
    trivial
  · exact ⟨(by intro v hv; simp at hv), by decide⟩
  · exact ⟨(by intro v hv; simp at hv), trivial⟩
  · exact ⟨(by intro v hv; simp at hv), trivial⟩

theorem Ex.bad_texts : ¬ Texts Ex.T 0 0 Ex.bad := by
  intro h
  have := enc_texts Ex.T 0 0 Ex.bad (ok_texts_fit _ _ _ _ Ex.bad_ok h)
  exact absurd this (by decide +kernel)

example : unmarshal Ex.T 9999 0 (marshal Ex.T 0 0 Ex.bad) = none :=
  C215_refused Ex.T Ex.legal 0 9999 0 Ex.bad Ex.bad_ok Ex.bad_texts (by decide +kernel)

/-- Whatever `Marshal` returns, `Unmarshal` accepts. -/
def C215_claim : Prop := ∀ (T : Schema), Legal T → ∀ (d t : Nat) (m : Msg d), Ok T d t m → size T d t m < 2 ^ 63 →
  ∃ m', unmarshal T d t (marshal T d t m) = some m'

/-- The error of `proto.Marshal` is dropped: a string that is not UTF-8 is noticed by the reader only. -/
theorem C215_claim_false : ¬ C215_claim := by
  intro h
  obtain ⟨m', e⟩ := h Ex.T Ex.legal 0 0 Ex.bad Ex.bad_ok (by decide +kernel)
  rw [C215_refused Ex.T Ex.legal 0 0 0 Ex.bad Ex.bad_ok Ex.bad_texts (by decide +kernel)] at e
  cases e

/-! ### C216 -/

/-- The bytes of a message after other bytes: the message is merged into what the other bytes give. -/
theorem C216_after (T : Schema) (hT : Legal T) (d t : Nat) (a : Bytes) (x y : Msg d) (ha : unmarshal T d t a = some x)
    (hy : Ok T d t y) (hx : Texts T d t y) (hs : size T d t y < 2 ^ 63) :
    unmarshal T d t (a ++ marshal T d t y) = some (merge T d t x y) := by
  have hf := ok_texts_fit T d t y hy hx
  have hxf := dec_fit T hT d t _ x a (empty_fit T true d t) ha
  rw [marshal_full T d t y hf, unmarshal, dec_append T d t _ x a _ ha,
    dec_full T hT d t x y hf (Nat.lt_trans hs (by decide)) hxf]

/-- The bytes of two messages, one after the other. -/
theorem C216_concat (T : Schema) (hT : Legal T) (d t : Nat) (x y : Msg d) (hx : Ok T d t x) (hxt : Texts T d t x)
    (hxs : size T d t x < 2 ^ 63) (hy : Ok T d t y) (hyt : Texts T d t y) (hys : size T d t y < 2 ^ 63) :
    unmarshal T d t (marshal T d t x ++ marshal T d t y) = some (merge T d t x y) :=
  C216_after T hT d t _ x y (C215_back T hT d t x hx hxt hxs) hy hyt hys

/-- The parent twice: the name once, the child's numbers twice, the byte strings twice. -/
example : unmarshal Ex.T 1 0 (marshal Ex.T 1 0 Ex.parent ++ marshal Ex.T 1 0 Ex.parent) =
    some (⟨[[], [.str [0xC3, 0xA9]],
      [.msg (⟨[[.num (-3)], [], [], [.num 300, .num (-1), .num 300, .num (-1)], []], [72, 1, 72, 1]⟩ : Body Empty)], [],
      [.str [], .str [0xFF], .str [], .str [0xFF]]], []⟩ : Body (Msg 0)) := by
  have hs : size Ex.T 1 0 Ex.parent < 2 ^ 63 := by rw [Ex.parent_size]; decide
  rw [C216_concat Ex.T Ex.legal 1 0 _ _ Ex.parent_ok Ex.parent_texts hs Ex.parent_ok Ex.parent_texts hs]
  rfl

/-! ### C217 -/

/-- A program with an older schema reads what a newer one wrote; it sees the values of the fields that it knows, and
when it writes the message again, the newer program gets everything back. -/
theorem C217_passes_on (T : Schema) (hT : Legal T) (old : Older) (ho : old.Fine) (hT' : Legal (older old T)) (d t : Nat)
    (m : Msg d) (hm : Ok T d t m) (hx : Texts T d t m) (hs : size T d t m < 2 ^ 63) :
    ∃ m' : Msg d, unmarshal (older old T) d t (marshal T d t m) = some m' ∧
      seen (older old T) (fun _ f => some f) d t m' = seen T old d t m ∧
      (size (older old T) d t m' < 2 ^ 63 → unmarshal T d t (marshal (older old T) d t m') = some m) := by
  have hf := ok_texts_fit T d t m hm hx
  have hs' : (fullM T d t m).length < 2 ^ 64 := Nat.lt_trans hs (by decide)
  have hof := oldMsg_fit T hT old ho d t m hf hs'
  refine ⟨oldMsg T old d t m, ?_, seen_oldMsg T old ho d t m, ?_⟩
  · rw [marshal_full T d t m hf, unmarshal, forward T hT old ho d t _ m hf hs' (empty_fit _ true d t),
      merge_empty _ true d t _ hof]
  · intro h
    rw [marshal_full _ d t _ hof, unmarshal, backward T hT old ho hT' d t _ m hf hs' (Nat.lt_trans h (by decide))
      (empty_fit _ true d t), merge_empty _ true d t m hf]

/-- The older schema knows nothing of the names (2) and of the packed numbers (4). -/
def Ex.old : Older := fun _ f => if f.num = 2 ∨ f.num = 4 then none else some f

theorem Ex.old_fine : Ex.old.Fine := by
  intro t f g h
  unfold Ex.old at h
  split at h
  · cases h
  · cases h; exact ⟨rfl, rfl, .inl rfl⟩

theorem Ex.old_legal : Legal (older Ex.old Ex.T) := by
  intro t
  unfold older Ex.T
  split
  · refine ⟨(by decide : List.Pairwise (fun f g : Field => f.num < g.num) [⟨1, .varint .sint32, .implicit⟩, ⟨3, .msg 0, .optional⟩, ⟨5, .bytes, .repeated⟩]), ?_⟩
    intro f hf
    have e : f ∈ [⟨1, .varint .sint32, .implicit⟩, ⟨3, .msg 0, .optional⟩, (⟨5, .bytes, .repeated⟩ : Field)] := hf
    simp only [List.mem_cons, List.not_mem_nil, or_false] at e
    rcases e with rfl | rfl | rfl <;> simp [Field.Legal]
  · simp

example : ∃ m' : Msg 1, unmarshal (older Ex.old Ex.T) 1 0 (marshal Ex.T 1 0 Ex.parent) = some m' ∧
    unmarshal Ex.T 1 0 (marshal (older Ex.old Ex.T) 1 0 m') = some Ex.parent := by
  obtain ⟨m', h1, _, h3⟩ := C217_passes_on Ex.T Ex.legal Ex.old Ex.old_fine Ex.old_legal 1 0 Ex.parent Ex.parent_ok
    Ex.parent_texts (by rw [Ex.parent_size]; decide)
  refine ⟨m', h1, h3 ?_⟩
  have e : unmarshal (older Ex.old Ex.T) 1 0 (marshal Ex.T 1 0 Ex.parent) =
      some (⟨[[], [.msg (⟨[[.num (-3)], [], []],
        [34, 12, 0xAC, 2, 0xFF, 0xFF, 0xFF, 0xFF, 0xFF, 0xFF, 0xFF, 0xFF, 0xFF, 1, 72, 1]⟩ : Body Empty)],
        [.str [], .str [0xFF]]], [18, 2, 0xC3, 0xA9]⟩ : Body (Msg 0)) := by rfl
  rw [e] at h1
  cases h1
  decide +kernel

/-- A program that has forgotten a field's type (here: a name read as a message) loses: the message is refused. -/
example : unmarshal (fun _ => [⟨2, .msg 0, .optional⟩]) 1 0 (marshal Ex.T 1 0 Ex.parent) = none := by rfl

end Gofer.Props.Proto
