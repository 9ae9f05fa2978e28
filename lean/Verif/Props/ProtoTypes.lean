import Verif.Proof.ProtoTypes
import Verif.Props.Proto

/-!
# Protocol buffers whose numbers change their types (util/protobuf.go)
-/
namespace Gofer.Props.ProtoTypes
open Gofer.Spec.Proto Gofer.Proto Gofer.Props.Proto

/-! ### C220 -/

/-- A message written with one schema and read with another one that has other types of the same encoding for some
numbers: every number is converted, also in messages within, and nothing else changes. -/
theorem C220_retyped (T T' : Schema) (hT : Legal T) (hT' : Legal T') (h : Retyped T T') (d t : Nat) (m : Msg d)
    (hm : Ok T d t m) (hx : Texts T d t m) (hs : size T d t m < 2 ^ 63) :
    unmarshal T' d t (marshal T d t m) = some (conv T T' d t m) := by
  rw [unmarshal_down T' hT', ← marshal_up, ← upT_retyped h,
    C215_back (upT T) (legal_up T hT) d t _ (ok_up T d t m hm) (texts_up T d t m hx) (by rw [size_up]; exact hs),
    Option.map_some, down_up h]

/-- The numbers of the types. -/
def InRange : VarKind → Int → Prop
  | .int32, i | .sint32, i => -2 ^ 31 ≤ i ∧ i < 2 ^ 31
  | .int64, i | .sint64, i => -2 ^ 63 ≤ i ∧ i < 2 ^ 63
  | .uint32, i => 0 ≤ i ∧ i < 2 ^ 32
  | .uint64, i => 0 ≤ i ∧ i < 2 ^ 64
  | .bool, i => i = 0 ∨ i = 1

/-- The number read is the converted one; it is one of the new type. -/
theorem C220_number (k k' : VarKind) (hz : k.zig = k'.zig) (x : BitVec 64) :
    k'.int (convNum k k' x) = k'.cast (k.int x) ∧ InRange k' (k'.int (convNum k k' x)) ∧ k'.Fits (convNum k k' x) := by
  have hlt := x.isLt
  have hr : -2 ^ 63 ≤ x.toInt ∧ x.toInt < 2 ^ 63 := by
    rw [BitVec.toInt_eq_toNat_cond]; split <;> omega
  have key : k'.int (convNum k k' x) = k'.cast (k.int x) ∧ InRange k' (k'.cast (k.int x)) := by
    unfold convNum
    cases k' with
    | int32 =>
      generalize k.int x = j
      have h1 := Int.le_bmod (x := j) (m := 2 ^ 32) (by decide)
      have h2 := Int.bmod_lt (x := j) (m := 2 ^ 32) (by decide)
      simp only [VarKind.cast, VarKind.int, InRange]
      generalize Int.bmod j (2 ^ 32) = i at *
      rw [BitVec.toInt_ofInt]
      refine ⟨Int.bmod_eq_of_le (by omega) (by omega), by omega, by omega⟩
    | int64 =>
      generalize k.int x = j
      have h1 := Int.le_bmod (x := j) (m := 2 ^ 64) (by decide)
      have h2 := Int.bmod_lt (x := j) (m := 2 ^ 64) (by decide)
      simp only [VarKind.cast, VarKind.int, InRange]
      generalize Int.bmod j (2 ^ 64) = i at *
      rw [BitVec.toInt_ofInt]
      refine ⟨Int.bmod_eq_of_le (by omega) (by omega), by omega, by omega⟩
    | uint32 =>
      generalize k.int x = j
      simp only [VarKind.cast, VarKind.int, InRange]
      rw [BitVec.toNat_ofInt]
      omega
    | uint64 =>
      generalize k.int x = j
      simp only [VarKind.cast, VarKind.int, InRange]
      rw [BitVec.toNat_ofInt]
      omega
    | bool =>
      simp only [VarKind.cast, InRange]
      split <;> simp [VarKind.int]
    | sint32 =>
      have e' : k.int x = x.toInt := by cases k <;> simp_all [VarKind.zig, VarKind.int]
      rw [e']
      simp only [VarKind.cast, VarKind.int, InRange]
      rw [BitVec.toInt_ofInt]
      split
      · exact ⟨Int.bmod_eq_of_le (by omega) (by omega), by omega, by omega⟩
      · exact ⟨Int.bmod_eq_of_le (by omega) (by omega), by omega, by omega⟩
    | sint64 =>
      have e' : k.int x = x.toInt := by cases k <;> simp_all [VarKind.zig, VarKind.int]
      rw [e']
      simp only [VarKind.cast, VarKind.int, InRange, BitVec.ofInt_toInt]
      exact ⟨trivial, hr⟩
  refine ⟨key.1, key.1 ▸ key.2, ?_⟩
  rw [← convNum_wire k k' hz]
  exact ofWire_fits _ _

/-- A number that the new type has is read unchanged. -/
theorem C220_kept (k k' : VarKind) (hz : k.zig = k'.zig) (x : BitVec 64) (h : InRange k' (k.int x)) :
    k'.int (convNum k k' x) = k.int x := by
  rw [(C220_number k k' hz x).1]
  generalize k.int x = i at *
  cases k' with
  | int32 => exact Int.bmod_eq_of_le (by have := h.1; omega) (by have := h.2; omega)
  | int64 => exact Int.bmod_eq_of_le (by have := h.1; omega) (by have := h.2; omega)
  | uint32 => exact Int.emod_eq_of_lt h.1 h.2
  | uint64 => exact Int.emod_eq_of_lt h.1 h.2
  | bool => rcases h with rfl | rfl <;> rfl
  | sint32 =>
    simp only [VarKind.cast]
    have h1 := h.1
    have h2 := h.2
    split <;> omega
  | sint64 => rfl

/-! A counter (1), a flag (2), a list (3) and a difference (4), within a message of the same type (5). -/

def Ex.A : Schema := fun t => if t = 0 then [⟨1, .varint .int64, .implicit⟩, ⟨2, .varint .int32, .optional⟩,
  ⟨3, .varint .int32, .packed⟩, ⟨4, .varint .sint64, .implicit⟩, ⟨5, .msg 0, .optional⟩] else []

def Ex.B : Schema := fun t => if t = 0 then [⟨1, .varint .int32, .implicit⟩, ⟨2, .varint .bool, .optional⟩,
  ⟨3, .varint .uint64, .packed⟩, ⟨4, .varint .sint32, .implicit⟩, ⟨5, .msg 0, .optional⟩] else []

theorem Ex.legalA : Legal Ex.A := by
  intro t
  unfold Ex.A
  split
  · refine ⟨by decide, ?_⟩
    intro f hf
    simp only [List.mem_cons, List.not_mem_nil, or_false] at hf
    rcases hf with rfl | rfl | rfl | rfl | rfl <;> simp [Field.Legal]
  · simp

theorem Ex.legalB : Legal Ex.B := by
  intro t
  unfold Ex.B
  split
  · refine ⟨by decide, ?_⟩
    intro f hf
    simp only [List.mem_cons, List.not_mem_nil, or_false] at hf
    rcases hf with rfl | rfl | rfl | rfl | rfl <;> simp [Field.Legal]
  · simp

theorem Ex.retyped : Retyped Ex.A Ex.B := by
  intro t
  unfold Ex.A Ex.B
  split
  · refine .cons ⟨rfl, rfl, .inr ⟨_, _, rfl, rfl, rfl⟩⟩ (.cons ⟨rfl, rfl, .inr ⟨_, _, rfl, rfl, rfl⟩⟩
      (.cons ⟨rfl, rfl, .inr ⟨_, _, rfl, rfl, rfl⟩⟩ (.cons ⟨rfl, rfl, .inr ⟨_, _, rfl, rfl, rfl⟩⟩
      (.cons ⟨rfl, rfl, .inl rfl⟩ .nil))))
  · exact .nil

/-- 2^32 + 7, 256, -1 and 5, -2^31 - 1. -/
def Ex.inner : Msg 0 := (⟨[[.num 0x100000007], [.num 256], [.num (-1), .num 5], [.num (-0x80000001)], []], []⟩ : Body Empty)

/-- 2^32, and the message above. -/
def Ex.outer : Msg 1 := (⟨[[.num 0x100000000], [], [], [], [.msg Ex.inner]], []⟩ : Body (Msg 0))

theorem Ex.inner_ok : Ok Ex.A 0 0 Ex.inner := by
  refine ⟨?_, [], by simp, rfl⟩
  refine .cons ⟨?_, by decide, ?_⟩ (.cons ⟨?_, by decide⟩ (.cons ⟨?_, trivial⟩ (.cons ⟨?_, by decide, ?_⟩ (.cons ⟨?_, by decide⟩ .nil))))
  · intro v hv; simp at hv; subst hv; trivial
  · intro v hv; simp at hv; subst hv; show ¬ _ = _; decide
  · intro v hv; simp at hv; subst hv; show VarKind.Fits .int32 _; unfold VarKind.Fits; decide
  · intro v hv
    simp only [List.mem_cons, List.not_mem_nil, or_false] at hv
    rcases hv with rfl | rfl <;> (show VarKind.Fits .int32 _; unfold VarKind.Fits; decide)
  · intro v hv; simp at hv; subst hv; trivial
  · intro v hv; simp at hv; subst hv; show ¬ _ = _; decide
  · intro v hv; simp at hv

theorem Ex.outer_ok : Ok Ex.A 1 0 Ex.outer := by
  refine ⟨?_, [], by simp, rfl⟩
  refine .cons ⟨?_, by decide, ?_⟩ (.cons ⟨?_, by decide⟩ (.cons ⟨?_, trivial⟩ (.cons ⟨?_, by decide, ?_⟩ (.cons ⟨?_, by decide⟩ .nil))))
  · intro v hv; simp at hv; subst hv; trivial
  · intro v hv; simp at hv; subst hv; show ¬ _ = _; decide
  · intro v hv; simp at hv
  · intro v hv; simp at hv
  · intro v hv; simp at hv
  · intro v hv; simp at hv
  · intro v hv; simp at hv; subst hv; exact Ex.inner_ok

theorem Ex.outer_texts : Texts Ex.A 1 0 Ex.outer := by
  apply fit_texts
  refine enc_fit Ex.A Ex.legalA 1 0 Ex.outer (ok_fit _ _ _ _ Ex.outer_ok) ?_
  decide +kernel

/-- 2^32 as an `int32` is 0, which does not show; 2^32 + 7 is 7; 256 is true; -1 as a `uint64` is 2^64 - 1; -2^31 - 1 as a
`sint32` is -1. -/
example : unmarshal Ex.B 1 0 (marshal Ex.A 1 0 Ex.outer) = some (⟨[[], [], [], [], [.msg
    (⟨[[.num 7], [.num 1], [.num (-1), .num 5], [.num (-1)], []], []⟩ : Body Empty)]], []⟩ : Body (Msg 0)) := by
  rw [C220_retyped Ex.A Ex.B Ex.legalA Ex.legalB Ex.retyped 1 0 Ex.outer Ex.outer_ok Ex.outer_texts (by decide +kernel)]
  rfl

/-- Numbers of the other encoding are read as other numbers: 1 as `sint32` is -1. -/
theorem C220_other_encoding : unmarshal (fun _ => [⟨1, .varint .sint32, .implicit⟩]) 0 0
    (marshal (fun _ => [⟨1, .varint .int32, .implicit⟩]) 0 0 (⟨[[.num 1]], []⟩ : Body Empty)) =
      some (⟨[[.num (-1)]], []⟩ : Body Empty) := by rfl

/-- Numbers of another wire type are not seen, and kept as unknown: 1 as `fixed32`. -/
theorem C220_other_wire : unmarshal (fun _ => [⟨1, .fixed32, .implicit⟩]) 0 0
    (marshal (fun _ => [⟨1, .varint .int32, .implicit⟩]) 0 0 (⟨[[.num 1]], []⟩ : Body Empty)) =
      some (⟨[[]], [8, 1]⟩ : Body Empty) := by rfl

end Gofer.Props.ProtoTypes
