import Verif.Proof.ThriftStruct

/-!
# C221–C225: any Thrift struct through `TEncode` and `TDecode`

`limit` is the configured size limit of strings and containers, at most what an int32 holds. `d` bounds the nesting of
structs and is arbitrary. A map is the list of its entries in the order in which Go happens to visit them, so that a
statement about all values is also one about all orders.
-/
namespace Gofer.Props.ThriftStruct
open Gofer.Spec.Thrift
open Gofer.Spec.ThriftStruct
open Gofer.ThriftStruct

/-! ### C221 -/

/-- Decoding gives the struct back, whatever comes after its bytes. -/
theorem C221_back (T : Schema) (hT : Legal T) (limit : Nat) (hl : limit < 2 ^ 31) (d n : Nat) (v : Struct T d n)
    (hv : Ok T limit d n v) (hu : NoDoubles T d n v) (rest : Bytes) :
    tDecode T limit d n (tEncode T d n v ++ rest) = some v := by
  unfold tEncode tDecode
  rw [(writeStruct_goes hT hl d n v hv).1 hu, readStruct_back hT hl d n v hv]
  rfl

/-- The bytes are those of the published format. -/
theorem C221_wire (T : Schema) (hT : Legal T) (limit : Nat) (hl : limit < 2 ^ 31) (d n : Nat) (v : Struct T d n)
    (hv : Ok T limit d n v) (hu : NoDoubles T d n v) : tEncode T d n v = encVal (.struct (tree T d n v)) := by
  unfold tEncode
  rw [(writeStruct_goes hT hl d n v hv).1 hu]

/-- Bytes that were cut anywhere are refused. -/
theorem C221_cut (T : Schema) (hT : Legal T) (limit : Nat) (hl : limit < 2 ^ 31) (d n : Nat) (v : Struct T d n)
    (hv : Ok T limit d n v) (hu : NoDoubles T d n v) (p s : Bytes) (hs : s ≠ []) (h : tEncode T d n v = p ++ s) :
    tDecode T limit d n p = none := by
  have hb := readStruct_back hT hl d n v hv []
  rw [List.append_nil, ← C221_wire T hT limit hl d n v hv hu, h] at hb
  exact cut_refused hs hb

/-! ### C222 -/

/-- A program generated from another version of the file gets the fields that both have, and unassigned new ones. -/
theorem C222_read (T T' : Schema) (hT : Legal T) (hT' : Legal T') (limit : Nat) (hl : limit < 2 ^ 31)
    (C : (n : Nat) → Change (T n) (T' n)) (hC : ∀ n, (C n).Sound) (d n : Nat) (v : Struct T d n) (hv : Ok T limit d n v)
    (hu : NoDoubles T d n v) (hr : Readable C d n v) (rest : Bytes) :
    tDecode T' limit d n (tEncode T d n v ++ rest) = some (seen C d n v) := by
  rw [C221_wire T hT limit hl d n v hv hu]
  unfold tDecode
  rw [(readStruct_spec hT hT' hl C hC d n v hv rest).1 hr]
  rfl

/-- It refuses the bytes if a field that it requires is missing, or one that it has not is nested more than 64 deep. -/
theorem C222_refused (T T' : Schema) (hT : Legal T) (hT' : Legal T') (limit : Nat) (hl : limit < 2 ^ 31)
    (C : (n : Nat) → Change (T n) (T' n)) (hC : ∀ n, (C n).Sound) (d n : Nat) (v : Struct T d n) (hv : Ok T limit d n v)
    (hu : NoDoubles T d n v) (hr : ¬ Readable C d n v) (rest : Bytes) :
    tDecode T' limit d n (tEncode T d n v ++ rest) = none := by
  rw [C221_wire T hT limit hl d n v hv hu]
  unfold tDecode
  rw [(readStruct_spec hT hT' hl C hC d n v hv rest).2 hr]
  rfl

/-! ### C223 -/

/-- What `TEncode` gives for a struct with an element twice in a set is refused: the error of `Write` is lost, and so
is the struct. -/
theorem C223_doubles (T : Schema) (hT : Legal T) (limit : Nat) (hl : limit < 2 ^ 31) (d n : Nat) (v : Struct T d n)
    (hv : Ok T limit d n v) (hu : ¬ NoDoubles T d n v) : tDecode T limit d n (tEncode T d n v) = none := by
  obtain ⟨_, s, hs, he⟩ := (writeStruct_goes hT hl d n v hv).2 hu
  have hb := readStruct_back hT hl d n v hv []
  rw [List.append_nil, he] at hb
  exact cut_refused hs hb

/-- The bytes are the beginning of what should have been written. -/
theorem C223_prefix (T : Schema) (hT : Legal T) (limit : Nat) (hl : limit < 2 ^ 31) (d n : Nat) (v : Struct T d n)
    (hv : Ok T limit d n v) (hu : ¬ NoDoubles T d n v) :
    ∃ s, s ≠ [] ∧ encVal (.struct (tree T d n v)) = tEncode T d n v ++ s :=
  ((writeStruct_goes hT hl d n v hv).2 hu).2

/-! ### C224 -/

/-- A struct that went through a program generated from an older file. -/
def C224_claim : Prop :=
  ∀ (T T' : Schema) (C : (n : Nat) → Change (T n) (T' n)) (limit d n : Nat) (v : Struct T d n) (v' : Struct T' d n),
    Legal T → Legal T' → (∀ n, (C n).Sound) → (∀ n, (C n).Older) → limit < 2 ^ 31 → Ok T limit d n v → NoDoubles T d n v →
    tDecode T' limit d n (tEncode T d n v) = some v' → tDecode T limit d n (tEncode T' d n v') = some v

/-- Structs that differ only in what the older program does not know are passed on as the same bytes. -/
theorem C224_forgets (T T' : Schema) (hT : Legal T) (hT' : Legal T') (limit : Nat) (hl : limit < 2 ^ 31)
    (C : (n : Nat) → Change (T n) (T' n)) (hC : ∀ n, (C n).Sound) (d n : Nat) (v w : Struct T d n) (hv : Ok T limit d n v)
    (hw : Ok T limit d n w) (hu : NoDoubles T d n v) (hx : NoDoubles T d n w) (hr : Readable C d n v) (hs : Readable C d n w)
    (he : seen C d n v = seen C d n w) :
    (tDecode T' limit d n (tEncode T d n v)).map (tEncode T' d n) = (tDecode T' limit d n (tEncode T d n w)).map (tEncode T' d n) := by
  have h1 := C222_read T T' hT hT' limit hl C hC d n v hv hu hr []
  have h2 := C222_read T T' hT hT' limit hl C hC d n w hw hx hs []
  rw [List.append_nil] at h1 h2
  rw [h1, h2, he]

/-! ### C225 -/

/-- A program generated from an older file can read what a newer one writes. -/
def C225_claim : Prop :=
  ∀ (T T' : Schema) (C : (n : Nat) → Change (T n) (T' n)) (limit d n : Nat) (v : Struct T d n),
    Legal T → Legal T' → (∀ n, (C n).Sound) → (∀ n, (C n).Older) → limit < 2 ^ 31 → Ok T limit d n v → NoDoubles T d n v →
    tDecode T' limit d n (tEncode T d n v) = some (seen C d n v)

/-- Proved for structs nested at most 64 deep. -/
theorem C225_partial (T T' : Schema) (C : (n : Nat) → Change (T n) (T' n)) (limit d n : Nat) (v : Struct T d n) (hT : Legal T)
    (hT' : Legal T') (hC : ∀ n, (C n).Sound) (ho : ∀ n, (C n).Older) (hl : limit < 2 ^ 31) (hv : Ok T limit d n v)
    (hu : NoDoubles T d n v) (hd : depth T d n v ≤ 64) : tDecode T' limit d n (tEncode T d n v) = some (seen C d n v) := by
  have := C222_read T T' hT hT' limit hl C hC d n v hv hu (older_readable C ho d n v hv hd) []
  rwa [List.append_nil] at this

/-! ### Concrete cases -/

/-- Type 0: a required number, a list of structs of type 1, an optional map, an optional set and a boolean far from the
other ids. Type 1: a double and a struct of type 0. -/
def newer : Schema
  | 0 => [⟨1, .required, .i32⟩, ⟨2, .default, .list (.struct 1)⟩, ⟨7, .optional, .map .str .i16⟩, ⟨40, .optional, .set .i64⟩, ⟨41, .default, .bool⟩]
  | 1 => [⟨1, .optional, .double⟩, ⟨3, .optional, .struct 0⟩]
  | _ => []

/-- Without the map, the set, and the double. -/
def older : Schema
  | 0 => [⟨1, .required, .i32⟩, ⟨2, .default, .list (.struct 1)⟩, ⟨41, .default, .bool⟩]
  | 1 => [⟨3, .optional, .struct 0⟩]
  | _ => []

def change : (n : Nat) → Change (newer n) (older n)
  | 0 => .same ⟨1, .required, .i32⟩ .required (.same ⟨2, .default, .list (.struct 1)⟩ .default (.dropped _ (.dropped _ (.same ⟨41, .default, .bool⟩ .default .nil))))
  | 1 => .dropped _ (.same ⟨3, .optional, .struct 0⟩ .optional .nil)
  | _ + 2 => .nil

def inner : Struct newer 2 1 :=
  ((some (0x3ff0000000000000#64), none, ()) : Option (BitVec 64) × Option (Struct newer 1 0) × Unit)

def value : Struct newer 3 0 :=
  ((some (-5#32), some [inner], some [([97], 300#16), ([], -1#16)], some [7#64, 0#64], some true, ()) :
    Option (BitVec 32) × Option (List (Struct newer 2 1)) × Option (List (List UInt8 × BitVec 16)) × Option (List (BitVec 64)) × Option Bool × Unit)

def twins : Struct newer 3 0 :=
  ((some (-5#32), some [], none, some [7#64, 0#64, 7#64], some true, ()) :
    Option (BitVec 32) × Option (List (Struct newer 2 1)) × Option (List (List UInt8 × BitVec 16)) × Option (List (BitVec 64)) × Option Bool × Unit)

theorem newer_legal : Legal newer := by
  intro n
  match n with
  | 0 => simp [newer, Ty.Legal, Ty.Plain]
  | 1 => simp [newer, Ty.Legal]
  | _ + 2 => simp [newer]

theorem older_legal : Legal older := by
  intro n
  match n with
  | 0 => simp [older, Ty.Legal]
  | 1 => simp [older, Ty.Legal]
  | _ + 2 => simp [older]

theorem change_sound (n : Nat) : (change n).Sound := by
  match n with
  | 0 => simp [change, older, Change.Sound, Change.lost]
  | 1 => simp [change, older, Change.Sound, Change.lost]
  | _ + 2 => simp [change, Change.Sound, Change.lost]

theorem change_older (n : Nat) : (change n).Older := by
  match n with
  | 0 => exact ⟨rfl, rfl, rfl, trivial⟩
  | 1 => exact ⟨rfl, trivial⟩
  | _ + 2 => trivial

theorem inner_ok : Ok newer 100 2 1 inner := by
  refine ⟨fun h => ?_, fun v hv => ?_, fun h => rfl, fun v hv => ?_, trivial⟩
  · exact Option.noConfusion rfl (heq_of_eq h)
  · exact trivial
  · cases hv

theorem value_ok : Ok newer 100 3 0 value := by
  refine ⟨(fun h => nomatch h), fun _ _ => trivial, (fun h => nomatch h), fun v hv => ?_, (fun h => nomatch h), fun v hv => ?_,
    (fun h => nomatch h), fun v hv => ?_, (fun h => nomatch h), fun _ _ => trivial, trivial⟩
  · have := Option.some.inj hv; subst this
    refine ⟨show 1 ≤ 100 by decide, fun x hx => ?_⟩
    have : x = inner := List.mem_singleton.mp hx
    subst this
    exact inner_ok
  · have := Option.some.inj hv; subst this
    refine ⟨show 2 ≤ 100 by decide, show [[97], ([] : List UInt8)].Nodup by decide, fun x hx => ⟨?_, trivial⟩⟩
    have : ∀ x ∈ [(([97] : List UInt8), 300#16), ([], -1#16)], x.1.length ≤ 100 := by decide
    exact this x hx
  · have := Option.some.inj hv; subst this
    exact ⟨show 2 ≤ 100 by decide, fun x hx => trivial⟩

theorem value_single : NoDoubles newer 3 0 value := by
  refine ⟨fun _ _ => trivial, fun v hv => ?_, fun v hv => ?_, fun v hv => ?_, fun _ _ => trivial, trivial⟩
  · have := Option.some.inj hv; subst this
    intro x hx
    have : x = inner := List.mem_singleton.mp hx
    subst this
    exact ⟨fun _ _ => trivial, (fun v hv => nomatch hv), trivial⟩
  · have := Option.some.inj hv; subst this
    exact fun _ _ => trivial
  · have := Option.some.inj hv; subst this
    exact show [7#64, 0#64].Nodup by decide

theorem value_depth : depth newer 3 0 value = 4 := rfl

/-- The bytes of the case. -/
example : tEncode newer 3 0 value =
    [0x15, 9, 0x19, 0x1c, 0x17, 0, 0, 0, 0, 0, 0, 0xf0, 0x3f, 0, 0x5b, 2, 0x84, 1, 97, 0xd8, 4, 0, 1, 0x0a, 80, 0x26, 14, 0, 0x11, 0] := by
  decide +kernel

example : tDecode newer 100 3 0 (tEncode newer 3 0 value) = some value := by
  have := C221_back newer newer_legal 100 (by decide) 3 0 value value_ok value_single []
  rwa [List.append_nil] at this

example : tDecode newer 100 3 0 ((tEncode newer 3 0 value).take 20) = none :=
  C221_cut newer newer_legal 100 (by decide) 3 0 value value_ok value_single _ ((tEncode newer 3 0 value).drop 20) (by decide +kernel)
    (List.take_append_drop _ _).symm

/-- The older program has the number, the list with an empty struct, and the boolean. -/
example : tDecode older 100 3 0 (tEncode newer 3 0 value) =
    some (show Struct older 3 0 from ((some (-5#32), some [(none, ())], some true, ()) :
      Option (BitVec 32) × Option (List (Option (Struct older 1 0) × Unit)) × Option Bool × Unit)) :=
  C225_partial newer older change 100 3 0 value newer_legal older_legal change_sound change_older (by decide) value_ok value_single
    (by rw [value_depth]; decide)

theorem C224_claim_false : ¬ C224_claim := by
  intro h
  have h1 := C225_partial newer older change 100 3 0 value newer_legal older_legal change_sound change_older (by decide) value_ok value_single
    (by rw [value_depth]; decide)
  have h2 := h newer older change 100 3 0 value _ newer_legal older_legal change_sound change_older (by decide) value_ok value_single h1
  have h3 : (tDecode newer 100 3 0 (tEncode older 3 0 (seen change 3 0 value))).map (fun s => s.2.2.2.1.isSome) = some false := rfl
  rw [h2] at h3
  cases h3

theorem twins_ok : Ok newer 100 3 0 twins := by
  refine ⟨(fun h => nomatch h), fun _ _ => trivial, (fun h => nomatch h), fun v hv => ?_, fun h => rfl, (fun v hv => nomatch hv),
    (fun h => nomatch h), fun v hv => ?_, (fun h => nomatch h), fun _ _ => trivial, trivial⟩
  · have := Option.some.inj hv; subst this
    exact ⟨show 0 ≤ 100 by decide, (fun x hx => nomatch hx)⟩
  · have := Option.some.inj hv; subst this
    exact ⟨show 3 ≤ 100 by decide, fun x hx => trivial⟩

theorem twins_double : ¬ NoDoubles newer 3 0 twins := by
  rintro ⟨_, _, _, h, _⟩
  have : [7#64, 0#64, 7#64].Nodup := h _ rfl
  revert this
  decide

example : tDecode newer 100 3 0 (tEncode newer 3 0 twins) = none :=
  C223_doubles newer newer_legal 100 (by decide) 3 0 twins twins_ok twins_double

example : tEncode newer 3 0 twins = [0x15, 9, 0x19, 0x0c, 0x0a, 80, 0x36] := by decide +kernel

/-- A reader that requires a field 9 refuses the case. -/
def stricter : Schema
  | 0 => ⟨9, .required, .str⟩ :: []
  | _ => []

def toStricter : (n : Nat) → Change (newer n) (stricter n)
  | 0 => .dropped _ (.dropped _ (.dropped _ (.dropped _ (.dropped _ (.added _ .nil)))))
  | 1 => .dropped _ (.dropped _ .nil)
  | _ + 2 => .nil

example : tDecode stricter 100 3 0 (tEncode newer 3 0 value) = none := by
  have := C222_refused newer stricter newer_legal
    (by intro n; match n with | 0 => simp [stricter, Ty.Legal] | _ + 1 => simp [stricter]) 100 (by decide) toStricter
    (by intro n; match n with
      | 0 => simp [toStricter, stricter, Change.Sound, Change.lost]
      | 1 => simp [toStricter, stricter, Change.Sound, Change.lost]
      | _ + 2 => simp [toStricter, Change.Sound, Change.lost]) 3 0 value value_ok value_single (by
      rintro ⟨_, h, _⟩
      exact h rfl) []
  rwa [List.append_nil] at this

/-! A field nested 65 deep. -/

/-- Lists of lists … of numbers, `k + 1` of them. -/
def nest : Nat → Ty
  | 0 => .list .i32
  | k + 1 => .list (nest k)

def deepVal (W : Nat → Type) : (k : Nat) → Val W (nest k)
  | 0 => ([] : List (BitVec 32))
  | k + 1 => ([deepVal W k] : List (Val W (nest k)))

theorem deepVal_depth {W : Nat → Type} (sub : (n : Nat) → W n → Nat) (k : Nat) : depthVal sub (nest k) (deepVal W k) = k + 1 := by
  induction k with
  | zero => rfl
  | succ k ih =>
    have : depthVal sub (nest (k + 1)) (deepVal W (k + 1)) = 1 + max (depthVal sub (nest k) (deepVal W k)) 0 := rfl
    rw [this, ih]; omega

theorem deepVal_ok {W : Nat → Type} (good : (n : Nat) → W n → Prop) (k : Nat) :
    ValOk 100 good (nest k) (deepVal W k) ∧ ValNoDoubles good (nest k) (deepVal W k) := by
  induction k with
  | zero => exact ⟨⟨show 0 ≤ 100 by decide, (fun x hx => nomatch hx)⟩, (fun x hx => nomatch hx)⟩
  | succ k ih =>
    refine ⟨⟨show 1 ≤ 100 by decide, fun x hx => ?_⟩, fun x hx => ?_⟩
    · have : x = deepVal W k := List.mem_singleton.mp hx
      subst this; exact ih.1
    · have : x = deepVal W k := List.mem_singleton.mp hx
      subst this; exact ih.2

theorem nest_legal (k : Nat) : (nest k).Legal := by
  induction k with
  | zero => trivial
  | succ k ih => exact ih

def deep (k : Nat) : Schema := fun _ => [⟨1, .optional, nest k⟩]

def toNone (k : Nat) : (n : Nat) → Change (deep k n) ((fun _ => [] : Schema) n) := fun _ => .dropped _ .nil

def deepStruct (k : Nat) : Struct (deep k) 1 0 := ((some (deepVal _ k), ()) : Option (Val (Struct (deep k) 0) (nest k)) × Unit)

/-- A program without the field reads the rest if the lists are at most 64 deep, and fails from 65 on. -/
theorem C225_deep (k : Nat) : tDecode (fun _ => []) 100 1 0 (tEncode (deep k) 1 0 (deepStruct k)) = if k < 64 then some () else none := by
  have hT : Legal (deep k) := fun n => ⟨List.pairwise_singleton _ _, fun f hf => by
    have : f = ⟨1, .optional, nest k⟩ := List.mem_singleton.mp hf
    subst this
    exact ⟨show 1 ≤ 1 by decide, show 1 < 2 ^ 15 by decide, nest_legal k⟩⟩
  have hT' : Legal (fun _ => []) := fun n => ⟨List.Pairwise.nil, (fun f hf => nomatch hf)⟩
  have hC : ∀ n, (toNone k n).Sound := fun n f hf g hg => nomatch hg
  have hv : Ok (deep k) 100 1 0 (deepStruct k) := ⟨fun _ => rfl, fun v hv => by
    have := Option.some.inj hv; subst this
    exact (deepVal_ok _ k).1, trivial⟩
  have hu : NoDoubles (deep k) 1 0 (deepStruct k) := ⟨fun v hv => by
    have := Option.some.inj hv; subst this
    exact (deepVal_ok _ k).2, trivial⟩
  have hiff : Readable (toNone k) 1 0 (deepStruct k) ↔ k < 64 := by
    constructor
    · rintro ⟨⟨h, _⟩, _⟩
      have : depthVal (depth (deep k) 0) (nest k) (deepVal _ k) ≤ 64 := h _ rfl
      rw [deepVal_depth] at this
      omega
    · intro hk
      refine ⟨⟨fun v hv => ?_, trivial⟩, trivial⟩
      have := Option.some.inj hv; subst this
      have : depthVal (depth (deep k) 0) (nest k) (deepVal _ k) ≤ 64 := by rw [deepVal_depth]; omega
      exact this
  by_cases hk : k < 64
  · rw [if_pos hk]
    have := C222_read (deep k) (fun _ => []) hT hT' 100 (by decide) (toNone k) hC 1 0 (deepStruct k) hv hu (hiff.mpr hk) []
    rw [List.append_nil] at this
    exact this
  · rw [if_neg hk]
    have := C222_refused (deep k) (fun _ => []) hT hT' 100 (by decide) (toNone k) hC 1 0 (deepStruct k) hv hu (fun h => hk (hiff.mp h)) []
    rwa [List.append_nil] at this

theorem C225_claim_false : ¬ C225_claim := by
  intro h
  have h1 := C225_deep 64
  have hT : Legal (deep 64) := fun n => ⟨List.pairwise_singleton _ _, fun f hf => by
    have : f = ⟨1, .optional, nest 64⟩ := List.mem_singleton.mp hf
    subst this
    exact ⟨by decide, by decide, nest_legal 64⟩⟩
  have h2 := h (deep 64) (fun _ => []) (toNone 64) 100 1 0 (deepStruct 64) hT
    (fun n => ⟨List.Pairwise.nil, (fun f hf => nomatch hf)⟩) (fun n f hf g hg => nomatch hg) (fun n => trivial) (by decide)
    ⟨fun _ => rfl, fun v hv => by
      have := Option.some.inj hv; subst this
      exact (deepVal_ok _ 64).1, trivial⟩
    ⟨fun v hv => by
      have := Option.some.inj hv; subst this
      exact (deepVal_ok _ 64).2, trivial⟩
  rw [h1] at h2
  simp at h2

end Gofer.Props.ThriftStruct
