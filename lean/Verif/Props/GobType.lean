import Verif.Proof.GobVersion

/-!
# Properties of `Encode` and `Decode` (util/gob.go) between versions of a type

`s` is the type that was encoded and `t` that of the variable for `Decode`; `reg` the numbers and names that the process that encoded
had given to its types.
-/
namespace Gofer.Props.GobType
open Gofer.Gob Gofer.Spec.Gob Gofer.GobType Gofer.Spec.GobType

/-! ## C245: what `Decode` makes of bytes of another version of the type -/

/-- C245: `Decode` succeeds exactly if the types fit, structs have some field in common and a value can come out; and what comes out is
what `Came` says, whatever other bytes follow. -/
theorem C245_exact (reg : Registry) (s t : GTy) (hr : Spec.GobType.Lawful reg s) (hs : Proper s) (ht : Proper t) (v : s.ty.Val)
    (he : Exists s.ty v) (bs : List UInt8) (h : encodeAs reg s v = .done bs false) (r : List UInt8) (w : t.ty.Val) :
    decodeAs t (bs ++ r) = some w ↔ Fits t s ∧ ¬ Strangers t s ∧ Came t s v w :=
  decode_as reg s t hr hs ht v he bs h r w

theorem cames_field : ∀ (f f' : GFields) (v : f'.ty.Vals) (w : f.ty.Vals), Cames f f' v w → ∀ (m : Name) (u : Any), field f w m = some u →
    (∃ x : Any, Holds f' v m x ∧ Came u.1 x.1 x.2 u.2) ∨ (¬ ∃ x : Any, Holds f' v m x) ∧ u.2 = zero u.1.ty
  | .nil, _, _, _, _, m, u, h => by
    have : (none : Option Any) = some u := h
    simp at this
  | .cons n t f, f', v, (a, w), hc, m, u, h => by
    by_cases hm : n = m
    · subst hm
      obtain rfl : (⟨t, a⟩ : Any) = u := Option.some.inj ((if_pos rfl).symm.trans h)
      exact hc.1
    · exact cames_field f f' v w hc.2 m u ((if_neg hm).symm.trans h)

/-- C245, for structs field by field: what the field of the same name held, or the zero value if there is none or it held nothing. -/
theorem C245_fields (reg : Registry) (n' n : Name) (f' f : GFields) (hr : Spec.GobType.Lawful reg (.struct n' f')) (hs : Proper (.struct n' f'))
    (ht : Proper (.struct n f)) (v : f'.ty.Vals) (he : Exists (.struct f'.ty) v) (bs : List UInt8)
    (h : encodeAs reg (.struct n' f') v = .done bs false) (w : f.ty.Vals) (hw : decodeAs (.struct n f) bs = some w) (m : Name) (u : Any)
    (hu : field f w m = some u) :
    (∃ x : Any, field f' v m = some x ∧ ¬ nothing x.1.ty x.2 ∧ Came u.1 x.1 x.2 u.2) ∨
      (∀ x : Any, field f' v m = some x → nothing x.1.ty x.2) ∧ u.2 = zero u.1.ty := by
  have h1 := (C245_exact reg _ (.struct n f) hr hs ht v he bs h [] w).1 (by rw [List.append_nil]; exact hw)
  obtain ⟨n1, f1, x1, h2, h3⟩ := h1.2.2
  obtain ⟨rfl, rfl⟩ := struct_inj (show some (⟨.struct n' f', v⟩ : Any) = some ⟨.struct n' f', v⟩ from rfl) h2
  rcases cames_field f f' v w h3 m u hu with ⟨x, ⟨ha, hb⟩, hc⟩ | ⟨ha, hb⟩
  · exact Or.inl ⟨x, ha, hb, hc⟩
  · exact Or.inr ⟨fun x hx => Classical.byContradiction fun hn => ha ⟨x, hx, hn⟩, hb⟩

/-- A value that was encoded without error has no nil pointer in a wrong place. -/
theorem encoded_whole (reg : Registry) (s : GTy) (v : s.ty.Val) (bs : List UInt8) (h : encodeAs reg s v = .done bs false) :
    nilPtr s.ty v = false ∧ ¬ NilElement s.ty v := by
  have hn : nilPtr s.ty v = false := by
    cases hp : nilPtr s.ty v with
    | false => rfl
    | true =>
      unfold encodeAs encode at h
      rw [if_pos hp] at h
      simp at h
  refine ⟨hn, fun hN => ?_⟩
  unfold encodeAs encode at h
  rw [if_neg (by simp [hn]), (GobStream.body_none _ _ _).2 (Or.inr hN)] at h
  simp at h

/-- C245: into a variable of the same type a value comes back as `back` says (see C207), with the descriptions of types that the
library writes and reads. -/
theorem C245_same (reg : Registry) (s : GTy) (hr : Spec.GobType.Lawful reg s) (hs : Proper s) (v : s.ty.Val) (he : Exists s.ty v) (hz : Sized s v)
    (bs : List UInt8) (h : encodeAs reg s v = .done bs false) (r : List UInt8) : decodeAs s (bs ++ r) = some (back s.ty v) := by
  obtain ⟨hn, hN⟩ := encoded_whole reg s v bs h
  exact (C245_exact reg s s hr hs hs v he bs h r _).2
    ⟨wider_fits s s (wider_refl s hs), strangers_self s, came_back s v hs hz hn hN⟩

/-- C245: plain values come back unchanged. -/
theorem C245_unchanged (reg : Registry) (s : GTy) (hr : Spec.GobType.Lawful reg s) (hs : Proper s) (v : s.ty.Val) (he : Exists s.ty v)
    (hz : Sized s v) (hp : Plain s.ty v) (bs : List UInt8) (h : encodeAs reg s v = .done bs false) (r : List UInt8) :
    decodeAs s (bs ++ r) = some v := by
  rw [C245_same reg s hr hs v he hz bs h r, (back_eq_iff s.ty v).2 hp]

/-- C245: what comes out does not depend on the process that encoded: two processes with other numbers and names of types are as one. -/
theorem C245_processes (reg reg' : Registry) (s t : GTy) (hr : Spec.GobType.Lawful reg s) (hr' : Spec.GobType.Lawful reg' s) (hs : Proper s)
    (ht : Proper t) (v : s.ty.Val) (he : Exists s.ty v) (bs bs' : List UInt8) (h : encodeAs reg s v = .done bs false)
    (h' : encodeAs reg' s v = .done bs' false) : decodeAs t bs = decodeAs t bs' := by
  have h1 := C245_exact reg s t hr hs ht v he bs h []
  have h2 := C245_exact reg' s t hr' hs ht v he bs' h' []
  rw [List.append_nil] at h1 h2
  exact Option.ext fun w => by rw [h1 w, h2 w]

/-- C245: bytes cut short anywhere are an error for every type. -/
theorem C245_truncated (reg : Registry) (s t : GTy) (hr : Spec.GobType.Lawful reg s) (v : s.ty.Val) (bs : List UInt8)
    (h : encodeAs reg s v = .done bs false) (n : Nat) (hc : n < bs.length) : decodeAs t (bs.take n) = none := by
  have hl := lib_lawful reg s hr
  rcases GobStream.encode_cases (lib reg s) s.ty v (encoded_whole reg s v bs h).1 with ⟨b, _, h2, h3⟩ | ⟨_, h3⟩
  · rw [encodeAs, h3] at h
    obtain rfl : definitions (lib reg s) s.ty ++ message b = bs := by simpa using h
    have hd : (definitions (lib reg s) s.ty ++ message b).drop n ≠ [] := by
      intro h0
      have := congrArg List.length h0
      rw [List.length_drop, List.length_nil] at this
      omega
    have hg : getSequence (((definitions (lib reg s) s.ty ++ message b).take n).length + 1) ((definitions (lib reg s) s.ty ++ message b).take n) = none :=
      GobStream.getSequence_cut ((lib reg s).defs s.ty) _ b _ (hl.defs_neg s.ty) (hl.defs_len s.ty) h2 ⟨_, hd, (List.take_append_drop _ _).symm⟩
    unfold decodeAs
    rw [hg]
  · rw [encodeAs, h3] at h
    simp at h

/-! ### Examples -/

/-- `Point` of the documentation of the library. -/
abbrev point : GTy := .struct [80, 111, 105, 110, 116] (.cons [88] (.int 64) (.cons [89] (.int 64) .nil))

/-- A process in which `Point` is the first struct that was used. -/
def reg : Registry where
  id
    | .slice _ => 66
    | .map _ _ => 67
    | .struct [73] _ => 68
    | _ => 65
  name
    | .struct n _ => n
    | _ => [91, 93]

theorem reg_point : Spec.GobType.Lawful reg point where
  ids := by simp [parts, partss, reg]
  inj := by simp [parts, partss]
  names := by simp [parts, partss, reg]
  short := by decide +kernel

theorem point_proper : Proper point := by simp [Proper, Propers, names]

-- The bytes in the documentation of the library.
example : encodeAs reg point ((22 : BitVec 64), (33 : BitVec 64), ()) = .done
    [31, 255, 129, 3, 1, 1, 5, 80, 111, 105, 110, 116, 1, 255, 130, 0, 1, 2, 1, 1, 88, 1, 4, 0, 1, 1, 89, 1, 4, 0, 0, 0,
      7, 255, 130, 1, 44, 1, 66, 0] false := by decide +kernel
theorem point_sized : Sized point ((22 : BitVec 64), (33 : BitVec 64), ()) := by
  refine ⟨?_, ?_, trivial⟩
  · show -2 ^ 63 ≤ (22 : BitVec 64).toInt ∧ (22 : BitVec 64).toInt < 2 ^ 63
    decide
  · show -2 ^ 63 ≤ (33 : BitVec 64).toInt ∧ (33 : BitVec 64).toInt < 2 ^ 63
    decide
example : Exists point.ty ((22 : BitVec 64), (33 : BitVec 64), ()) := ⟨by decide, trivial, trivial, trivial⟩

/-- `type I struct { N string; C int32 }`. -/
abbrev item : GTy := .struct [73] (.cons [78] .str (.cons [67] (.int 32) .nil))
/-- `type O struct { Id int64; I []I; Old bool }`. -/
abbrev order : GTy := .struct [79] (.cons [73, 100] (.int 64) (.cons [73] (.slice item) (.cons [79] .bool .nil)))
/-- `type I struct { C int64; P float64; N string }`. -/
abbrev item' : GTy := .struct [73] (.cons [67] (.int 64) (.cons [80] .float (.cons [78] .str .nil)))
/-- `type O struct { I []*I; Id *uint16... }` with other fields in another order: `type O struct { I []*I; T string; Id *int16 }`. -/
abbrev order' : GTy := .struct [79] (.cons [73] (.slice (.ptr item')) (.cons [84] .str (.cons [73, 100] (.ptr (.int 16)) .nil)))

/-- `O{Id: 7, I: {{"a", 3}, {"", -1}}, Old: true}`. -/
abbrev anOrder : order.ty.Val :=
  ((7 : BitVec 64), (some [(([97] : List UInt8), (3 : BitVec 64), ()), (([] : List UInt8), (-1 : BitVec 64), ())] : Option (List item.ty.Val)), true, ())

theorem reg_order : Spec.GobType.Lawful reg order where
  ids := by simp [parts, partss, reg]
  inj := by simp [parts, partss, reg]
  names := by simp [parts, partss, reg]
  short := by decide +kernel

example : Proper order ∧ Proper order' := by simp [Proper, Propers, names]

/-- The bytes of an encoding. -/
def bytesOf : Encoded → List UInt8
  | .done bs _ => bs
  | .panic => []

-- Fields are matched by name, at all depths; the field `Old` is skipped, `P` and `T` are zero, pointers are made.
def anOrder' : Option (Option (List (Option (BitVec 64 × BitVec 64 × List UInt8 × Unit))) × List UInt8 × Option (BitVec 64) × Unit) :=
  decodeAs order' (bytesOf (encodeAs reg order anOrder))
example : anOrder' = some (some [some (3, 0, [97], ()), some (-1, 0, [], ())], [], some 7, ()) := by
  set_option synthInstance.maxSize 2000 in
  decide +kernel

/-! ## C246: versions of a type -/

/-- C246 at full strength: into a version in which fields have been added, removed, moved or given a larger size of number, every value
can be decoded. -/
def C246_claim : Prop :=
  ∀ (reg : Registry) (s t : GTy) (v : s.ty.Val) (bs : List UInt8), Spec.GobType.Lawful reg s → Proper s → Proper t → Exists s.ty v → Sized s v →
    Wider t s → encodeAs reg s v = .done bs false → ∃ w, decodeAs t bs = some w

/-- C246, as far as it holds: unless both have fields and none of the old ones is left. -/
theorem C246_wider_partial (reg : Registry) (s t : GTy) (hr : Spec.GobType.Lawful reg s) (hs : Proper s) (ht : Proper t) (v : s.ty.Val)
    (he : Exists s.ty v) (hz : Sized s v) (hw : Wider t s) (hst : ¬ Strangers t s) (bs : List UInt8) (h : encodeAs reg s v = .done bs false)
    (r : List UInt8) : ∃ w, decodeAs t (bs ++ r) = some w := by
  obtain ⟨hn, hN⟩ := encoded_whole reg s v bs h
  obtain ⟨w, hc⟩ := (came_iff t s v (wider_fits t s hw) hn hN).2 (wider_fine t s v hw hz)
  exact ⟨w, (C245_exact reg s t hr hs ht v he bs h r w).2 ⟨wider_fits t s hw, hst, hc⟩⟩

/-- C246: `Decode` is an error exactly if a type does not fit, no field is left, or a number is too large. -/
theorem C246_errors (reg : Registry) (s t : GTy) (hr : Spec.GobType.Lawful reg s) (hs : Proper s) (ht : Proper t) (v : s.ty.Val)
    (he : Exists s.ty v) (bs : List UInt8) (h : encodeAs reg s v = .done bs false) (r : List UInt8) :
    decodeAs t (bs ++ r) = none ↔ ¬ Fits t s ∨ Strangers t s ∨ Overflows t s v := by
  obtain ⟨hn, hN⟩ := encoded_whole reg s v bs h
  have hx := C245_exact reg s t hr hs ht v he bs h r
  constructor
  · intro h0
    by_cases hf : Fits t s
    · by_cases hst : Strangers t s
      · exact Or.inr (Or.inl hst)
      · refine Or.inr (Or.inr (Classical.byContradiction fun ho => ?_))
        obtain ⟨w, hc⟩ := (came_iff t s v hf hn hN).2 ho
        have := (hx w).2 ⟨hf, hst, hc⟩
        rw [h0] at this
        simp at this
    · exact Or.inl hf
  · intro h0
    cases hd : decodeAs t (bs ++ r) with
    | none => rfl
    | some w =>
      obtain ⟨h1, h2, h3⟩ := (hx w).1 hd
      rcases h0 with h0 | h0 | h0
      · exact absurd h1 h0
      · exact absurd h0 h2
      · exact absurd h0 ((came_iff t s v h1 hn hN).1 ⟨w, h3⟩)

/-- C246: a field whose type has been changed to one that does not fit makes all values of the struct unreadable, those included in
which the field was never set. -/
theorem C246_changed_field (reg : Registry) (n' n : Name) (f' f : GFields) (hr : Spec.GobType.Lawful reg (.struct n' f'))
    (hs : Proper (.struct n' f')) (ht : Proper (.struct n f)) (m : Name) (a b : GTy) (ha : find f' m = some a) (hb : find f m = some b)
    (hab : ¬ Fits b a) (v : f'.ty.Vals) (he : Exists (.struct f'.ty) v) (bs : List UInt8) (h : encodeAs reg (.struct n' f') v = .done bs false)
    (r : List UInt8) : decodeAs (.struct n f) (bs ++ r) = none := by
  refine (C246_errors reg _ (.struct n f) hr hs ht v he bs h r).2 (Or.inl ?_)
  rintro ⟨n1, f1, h1, h2⟩
  obtain ⟨rfl, rfl⟩ := GTy.struct.inj (show GTy.struct n' f' = .struct n1 f1 from h1)
  exact hab ((Fitss_iff f f' ht.2).1 h2 m a b ha hb)

/-- C246: a value that goes through a program with another version of the type and back loses the fields that version does not have. -/
theorem C246_lost (reg' : Registry) (n' n : Name) (f' f : GFields) (hr' : Spec.GobType.Lawful reg' (.struct n f)) (hs : Proper (.struct n' f'))
    (ht : Proper (.struct n f)) (v' : f'.ty.Vals) (w : f.ty.Vals) (he' : Exists (.struct f.ty) w) (bs' : List UInt8)
    (h' : encodeAs reg' (.struct n f) w = .done bs' false) (hd' : decodeAs (.struct n' f') bs' = some v') (m : Name) (hm : m ∉ names f) (u : Any)
    (hu : field f' v' m = some u) : u.2 = zero u.1.ty := by
  rcases C245_fields reg' n n' f f' hr' ht hs w he' bs' h' v' hd' m u hu with ⟨x, hx, _⟩ | ⟨_, h0⟩
  · rw [field_none f w m hm] at hx
    simp at hx
  · exact h0

/-- `type Point struct { Z int64 }`. -/
abbrev other : GTy := .struct [80, 111, 105, 110, 116] (.cons [90] (.int 64) .nil)

/-- C246 at full strength is false: if no field has kept its name, nothing can be decoded. -/
theorem C246_claim_false : ¬ C246_claim := by
  intro h
  have he : Exists point.ty ((22 : BitVec 64), (33 : BitVec 64), ()) := ⟨by decide, trivial, trivial, trivial⟩
  have henc : encodeAs reg point ((22 : BitVec 64), (33 : BitVec 64), ()) = .done
    [31, 255, 129, 3, 1, 1, 5, 80, 111, 105, 110, 116, 1, 255, 130, 0, 1, 2, 1, 1, 88, 1, 4, 0, 1, 1, 89, 1, 4, 0, 0, 0,
      7, 255, 130, 1, 44, 1, 66, 0] false := by decide +kernel
  have hp : Proper other := by simp [Proper, Propers, names]
  obtain ⟨w, hw⟩ := h reg point other ((22 : BitVec 64), (33 : BitVec 64), ()) _ reg_point point_proper hp he point_sized
    ⟨_, _, rfl, by simp [find, Widers]⟩ henc
  have := (C245_exact reg point other reg_point point_proper hp _ he _ henc [] w).1 (by rw [List.append_nil]; exact hw)
  exact this.2.1 ⟨_, _, _, _, rfl, rfl, by simp [names], by simp [names], by simp [names]⟩

-- The two versions of the orders: larger numbers for the items, but a smaller one for the `Id`.
example : Wider item' item := ⟨_, _, rfl, by simp [find, Widers, Wider, GTy.base]⟩
example : ¬ Strangers item' item := by
  rintro ⟨n, f, n', f', h, h', _, _, h3⟩
  obtain ⟨rfl, rfl⟩ := GTy.struct.inj (show item' = .struct n f from h)
  obtain ⟨rfl, rfl⟩ := GTy.struct.inj (show item = .struct n' f' from h')
  exact h3 [67] (by simp [names]) (by simp [names])
example : ¬ Wider order' order := by
  rintro ⟨n, f, h, h1, _, h2, _⟩
  obtain ⟨rfl, rfl⟩ := GTy.struct.inj (show order = .struct n f from h)
  obtain ⟨m, h3, h4⟩ := h2 (.int 64) (by simp [find])
  obtain rfl : 64 = m := GTy.int.inj h3
  omega

-- An `Id` that is not a number of 16 bits is an error.
example : decodeAs order' (bytesOf (encodeAs reg order ((40000 : BitVec 64), (none : Option (List item.ty.Val)), true, ()))) = none := by
  decide +kernel
example : Overflows order' order ((40000 : BitVec 64), (none : Option (List item.ty.Val)), true, ()) := by
  refine ⟨_, _, _, rfl, Or.inr (Or.inr (Or.inl ⟨_, ⟨rfl, ?_⟩, 64, 40000, rfl, by decide⟩))⟩
  intro h
  have : (40000 : BitVec 64) = 0 := h
  simp at this

-- `Y` has become a string: an error, even if it was never set.
example : ¬ Fits .str (.int 64) := by simp [Fits, GTy.base]
example : decodeAs (.struct [80] (.cons [88] (.int 64) (.cons [89] .str .nil))) (bytesOf (encodeAs reg point ((22 : BitVec 64), (0 : BitVec 64), ()))) = none := by
  decide +kernel

-- A program that knows only `Y` loses `X`.
example : (show Option (BitVec 64 × Unit) from decodeAs (.struct [80] (.cons [89] (.int 64) .nil))
    (bytesOf (encodeAs reg point ((22 : BitVec 64), (33 : BitVec 64), ())))) = some (33, ()) := by decide +kernel
example : (show Option (BitVec 64 × BitVec 64 × Unit) from decodeAs point
    (bytesOf (encodeAs reg (.struct [80] (.cons [89] (.int 64) .nil)) ((33 : BitVec 64), ())))) = some (0, 33, ()) := by decide +kernel

end Gofer.Props.GobType
