import Verif.Proof.UuidBytes
import Verif.Props.Uuid
/-! # The bytes of a UUID are lent (C266) -/
namespace Gofer.Props.UuidBytes
open Gofer.Uuid
open Gofer.UuidBytes

/-- The slice an operation may write through. -/
def Writes (k : Nat) : Op → Prop
  | .write k' _ _ => k' = k
  | .append k' _ _ => k' = k
  | _ => False

/-- **C266, the claim**: a UUID keeps its text. -/
def C266_claim : Prop := ∀ (ops ops' : List Op) (p : Nat) (a : Bytes), (run start ops).arrays[p]? = some a →
  ∃ b, (run (run start ops) ops').arrays[p]? = some b ∧ text b = text a

/-- It is false: `append(u.Bytes()[:6], 0)` writes byte 6 of `u`, and the version is no longer 4. -/
theorem C266_claim_false : ¬ C266_claim ∧
    ((run start [.new (mk 5 7), .bytes 0, .cut 0 0 6, .append 1 [0] 0]).arrays.map version) = [0] := by
  refine ⟨?_, by decide +kernel⟩
  intro h
  obtain ⟨b, hb, ht⟩ := h [.new (mk 5 7)] [.bytes 0, .cut 0 0 6, .append 1 [0] 0] 0 (mk 5 7) (by decide +kernel)
  have : (run (run start [.new (mk 5 7)]) [.bytes 0, .cut 0 0 6, .append 1 [0] 0]).arrays[0]? ≠ some b := by
    intro h2
    have e : b = (run (run start [.new (mk 5 7)]) [.bytes 0, .cut 0 0 6, .append 1 [0] 0]).arrays.getD 0 [] := by
      rw [List.getD_eq_getElem?_getD, h2]; rfl
    rw [e] at ht
    revert ht
    decide +kernel
  exact this hb

/-- **C266, the part that holds**: a UUID changes only by writing through a slice of its own array: whatever else the program does, with other UUIDs, their bytes, and
copies, its bytes and its text stay. -/
theorem C266_own_partial (ops ops' : List Op) (p : Nat) (a : Bytes) (h : (run start ops).arrays[p]? = some a)
    (ho : ∀ op ∈ ops', ∀ k, Writes k op → ∀ sl, (run (run start ops) ops').slices[k]? = some sl → sl.arr ≠ p) :
    (run (run start ops) ops').arrays[p]? = some a := by
  refine run_own ops' _ p a h ?_
  intro op hop k hk
  refine ho op hop k ?_
  cases op <;> simp_all [Writes, through]

/-- **C266, it stays a UUID**: its array has 16 bytes forever. -/
theorem C266_sixteen (ops : List Op) (b : Bytes) (hb : b.length = 16) (ops' : List Op) :
    ∃ c, (run (step (run start ops) (.new b)) ops').arrays[(run start ops).arrays.length]? = some c ∧ c.length = 16 := by
  have g := run_good ops start start_good
  have h0 : (step (run start ops) (.new b)).arrays[(run start ops).arrays.length]? = some b := by
    simp [step, hb]
  obtain ⟨c, h1, h2⟩ := run_length ops' _ (step_good _ (.new b) g) _ _ h0
  exact ⟨c, h1, h2.trans hb⟩

/-- **C266, a write**: `u.Bytes()[i] = v` sets byte `i` of `u`; the text changes exactly if the byte does, and no other array changes. -/
theorem C266_write (s : St) (k p i : Nat) (v : UInt8) (a : Bytes) (hk : s.slices[k]? = some (bytesOf p)) (hp : s.arrays[p]? = some a) (ha : a.length = 16)
    (hi : i < 16) :
    (step s (.write k i v)).arrays[p]? = some (a.set i v) ∧ (text (a.set i v) = text a ↔ a[i]? = some v) ∧
      ∀ q, q ≠ p → (step s (.write k i v)).arrays[q]? = s.arrays[q]? := by
  refine ⟨?_, ⟨?_, ?_⟩, ?_⟩
  · simp [step, hk, bytesOf, hi, hp]
  · intro h
    have e := Gofer.Props.Uuid.C43_injective (a.set i v) a (by simpa using ha) ha h
    rw [← e, List.getElem?_set_self (by omega)]
  · intro h
    congr 1
    apply List.ext_getElem?
    intro j
    by_cases hj : i = j
    · subst hj
      rw [List.getElem?_set_self (by omega), h]
    · rw [List.getElem?_set_ne hj]
  · intro q hq
    simp [step, hk, bytesOf, hi, Ne.symm hq]

/-- **C266, any slice**: a write through a slice sets the byte at its place in the array, and `append` with room writes behind the slice; the slice that comes out shows the same array. -/
theorem C266_slice (s : St) (k : Nat) (sl : Slice) (a : Bytes) (hk : s.slices[k]? = some sl) (hp : s.arrays[sl.arr]? = some a) :
    (∀ i v, i < sl.len → (step s (.write k i v)).arrays[sl.arr]? = some (a.set (sl.off + i) v)) ∧
    (∀ xs room, sl.len + xs.length ≤ sl.cap →
      (step s (.append k xs room)).arrays[sl.arr]? = some (a.take (sl.off + sl.len) ++ xs ++ a.drop (sl.off + sl.len + xs.length)) ∧
      (step s (.append k xs room)).slices = s.slices ++ [{ sl with len := sl.len + xs.length }]) := by
  refine ⟨fun i v hi => ?_, fun xs room hc => ⟨?_, ?_⟩⟩
  · simp [step, hk, hi, hp]
  · simp [step, hk, hc, hp, writeAt]
  · simp [step, hk, hc]

/-- **C266, append**: `append(u.Bytes(), xs...)` with something to append has the bytes of `u` and then `xs`, in an array of its own: every array there was stays as it is. -/
theorem C266_append (s : St) (k p room : Nat) (xs a : Bytes) (hk : s.slices[k]? = some (bytesOf p)) (hp : s.arrays[p]? = some a) (ha : a.length = 16) (hx : xs ≠ []) :
    step s (.append k xs room) = ⟨s.arrays ++ [a ++ xs ++ List.replicate room 0], s.slices ++ [⟨s.arrays.length, 0, 16 + xs.length, 16 + xs.length + room⟩]⟩ := by
  have : 0 < xs.length := List.length_pos_of_ne_nil hx
  have h1 : ¬ (16 + xs.length ≤ 16) := by omega
  have h2 : a.take 16 = a := List.take_of_length_le (by omega)
  simp [step, hk, bytesOf, slice, List.getD_eq_getElem?_getD, hp, h2, show xs ≠ [] from hx]

/-- Two UUIDs; one is written through a slice of a slice, the other and a copy made by `append` stay. -/
example : (run start [.new (mk 5 7), .new (mk 6 8), .bytes 0, .bytes 1, .append 1 [9] 3, .cut 0 10 12, .write 3 1 77]).arrays =
    [(mk 5 7).set 11 77, mk 6 8, mk 6 8 ++ [9] ++ [0, 0, 0]] := by decide +kernel
/-- `append` of nothing is no copy. -/
example : (run start [.new (mk 5 7), .bytes 0, .append 0 [] 0, .write 1 0 77]).arrays = [(mk 5 7).set 0 77] := by decide +kernel
example : ∀ op ∈ [Op.bytes 1, .write 0 3 9], ∀ k, Writes k op → ∀ sl,
    (run (run start [.new (mk 5 7), .new (mk 6 8)]) [.bytes 1, .write 0 3 9]).slices[k]? = some sl → sl.arr ≠ 0 := by
  intro op hop k hk sl hs
  simp only [List.mem_cons, List.not_mem_nil, or_false] at hop
  rcases hop with rfl | rfl
  · exact absurd hk id
  · cases hk
    have : sl = bytesOf 1 := by
      have e : (run (run start [.new (mk 5 7), .new (mk 6 8)]) [.bytes 1, .write 0 3 9]).slices[0]? = some (bytesOf 1) := by decide +kernel
      rw [e] at hs
      exact (Option.some.inj hs).symm
    rw [this]
    decide

end Gofer.Props.UuidBytes
