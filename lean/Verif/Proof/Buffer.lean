import Verif.Model.Buffer
import Verif.Proof.GoSlice
import Verif.Proof.Num

namespace Gofer.Buffer
open Gofer.GoSlice Gofer.Num Gofer.Spec.Buffer

/-- The code over plain byte strings: as the specification except for the count of `WriteInt32` and for `Read`. -/
def asIs (c : List UInt8) : Op → List UInt8 × Res
  | .writeInt32 i => (c ++ be32 i, .count 8 false)
  | .read k => (if k < c.length then c.drop k else c, .read (c.take k) false)
  | o => Spec.Buffer.step c o

/-- A history of `asIs`. -/
def asIsRun (c : List UInt8) : List Op → List UInt8 × List Res
  | [] => (c, [])
  | o :: os =>
    let (c1, r) := asIs c o
    let (c2, rs) := asIsRun c1 os
    (c2, r :: rs)

theorem be32_eq (i : BitVec 64) : int32ToBytes (i.setWidth 32) = be32 i := by
  have hi := i.isLt
  rw [int32ToBytes_eq]
  apply beValue_inj
  · simp [beBytes_length, be32]
  · rw [beValue_beBytes]
    simp only [be32, beValue_cons, beValue_nil, List.length_cons, List.length_nil, BitVec.toNat_setWidth, Nat.toUInt8, UInt8.toNat_ofNat']
    norm_num at hi ⊢
    omega

theorem valid_make (h : Heap) (n : Nat) : Valid (make h n).1 (make h n).2 := by
  refine ⟨?_, ?_, Nat.le_refl _⟩
  · simp [make, Heap.alloc]
  · simp only [make, alloc_snd]
    rw [get_alloc_new]; simp

theorem valid_make_old {h : Heap} {s : Slice} (v : Valid h s) (n : Nat) : Valid (make h n).1 s := valid_alloc v _

theorem bytes_make_old {h : Heap} {s : Slice} (v : Valid h s) (n : Nat) : bytes (make h n).1 s = bytes h s := by
  simp only [bytes, make]
  rw [get_alloc_old _ _ v.arr]

theorem bytes_write_ne (h : Heap) {s : Slice} {i : Nat} (pos : Nat) (d : List UInt8) (hij : s.arr ≠ i) :
    bytes (h.write i pos d) s = bytes h s := by
  simp only [bytes]
  rw [get_write_ne _ _ _ hij]

/-- A write behind the window of `v`, in its array. -/
theorem bytes_write_behind {h : Heap} {v : Slice} (hv : Valid h v) (pos : Nat) (d : List UInt8) (hp : v.off + v.len ≤ pos) :
    bytes (h.write v.arr pos d) v = bytes h v := by
  simp only [bytes]
  rw [get_write_self _ _ _ hv.arr]
  have h1 := hv.cap
  have h2 := hv.len
  have hlen : ((h.get v.arr).take pos).length = min pos (h.get v.arr).length := by simp
  rw [List.append_assoc, List.drop_append_of_le_length (by omega), List.take_append_of_le_length (by simp; omega)]
  rw [List.drop_take, List.take_take, Nat.min_eq_left (by omega)]

/-- The part of a slice left after taking `n` bytes off the front. -/
theorem valid_tail {h : Heap} {s : Slice} (v : Valid h s) {n : Nat} (hn : n ≤ s.len) :
    Valid h { s with off := s.off + n, len := s.len - n, cap := s.cap - n } ∧
    bytes h { s with off := s.off + n, len := s.len - n, cap := s.cap - n } = (bytes h s).drop n := by
  have := v.cap; have := v.len
  refine ⟨⟨v.arr, by simp only; omega, by simp only; omega⟩, ?_⟩
  simp only [bytes]
  rw [List.drop_take, List.drop_drop]

theorem rest_spec {h : Heap} {s : Slice} (v : Valid h s) {n : Nat} (hn : n ≤ s.len) :
    Valid h (rest s n) ∧ bytes h (rest s n) = if n < s.len then (bytes h s).drop n else bytes h s := by
  unfold rest
  split
  · exact valid_tail v hn
  · exact ⟨v, rfl⟩

theorem step_some {h : Heap} {s : Slice} (v : Valid h s) (o : Op) (e : Nat) :
    ∃ s', (step h (some s) o e).2.1 = some s' ∧ Valid (step h (some s) o e).1 s' ∧
      bytes (step h (some s) o e).1 s' = (asIs (bytes h s) o).1 ∧ (step h (some s) o e).2.2 = (asIs (bytes h s) o).2 := by
  have hl := length_bytes v
  cases o with
  | write p => exact ⟨_, rfl, (append_spec v p e).1, (append_spec v p e).2.1, rfl⟩
  | writeString p => exact ⟨_, rfl, (append_spec v p e).1, (append_spec v p e).2.1, rfl⟩
  | writeInt32 i =>
    refine ⟨_, rfl, (append_spec v _ e).1, ?_, rfl⟩
    have := (append_spec v (int32ToBytes (i.setWidth 32)) e).2.1
    rw [be32_eq] at this
    simp only [step, writeInt32, be32_eq]
    exact this
  | writeByte c => exact ⟨_, rfl, (append_spec v [c] e).1, (append_spec v [c] e).2.1, rfl⟩
  | reset => exact ⟨_, rfl, ⟨v.arr, v.cap, Nat.zero_le _⟩, by simp [bytes, step, reset, asIs, Spec.Buffer.step], rfl⟩
  | bytes => exact ⟨s, rfl, v, rfl, rfl⟩
  | string => exact ⟨s, rfl, v, rfl, rfl⟩
  | len => exact ⟨s, rfl, v, rfl, by simp [step, len, asIs, Spec.Buffer.step, hl]⟩
  | read k =>
    have vp := valid_make h k
    have vs := valid_make_old v k
    have hne : s.arr ≠ (make h k).2.arr := by
      have := v.arr
      change s.arr ≠ h.arrays.length
      omega
    have hb := bytes_make_old v k
    generalize hp : (make h k).2 = p at vp hne
    have hpl : p.len = k := by rw [← hp]; rfl
    generalize hm : (make h k).1 = h1 at vp vs hb
    have hd : ((bytes h1 s).take (min p.len s.len)).length = min p.len s.len := by simp [hb, hl]
    have hw : p.off + ((bytes h1 s).take (min p.len s.len)).length ≤ (h1.get p.arr).length := by
      have := vp.cap; have := vp.len; rw [hd]; omega
    have vs2 := valid_write vs p.arr p.off _ hw
    have hb2 := bytes_write_ne h1 p.off ((bytes h1 s).take (min p.len s.len)) hne
    have hdata : (bytes (h1.write p.arr p.off ((bytes h1 s).take (min p.len s.len))) p).take (min p.len s.len) = (bytes h s).take k := by
      generalize hx : (bytes h1 s).take (min p.len s.len) = x at hd
      simp only [bytes]
      rw [get_write_self _ _ _ vp.arr]
      have h1' : ((h1.get p.arr).take p.off).length = p.off := by
        have := vp.cap; simp; omega
      rw [List.append_assoc, List.drop_append_of_le_length (by omega), List.drop_take, Nat.sub_self, List.take_zero, List.nil_append,
        List.take_take, Nat.min_eq_left (Nat.min_le_left _ _)]
      rw [List.take_append_of_le_length (Nat.le_of_eq hd.symm), List.take_of_length_le (Nat.le_of_eq hd)]
      rw [← hx, hb, hpl]
      change List.take (min k s.len) (bytes h s) = List.take k (bytes h s)
      rw [← hl, ← List.take_take, List.take_length]
    have hstep : step h (some s) (.read k) e = read h1 p (some s) := by
      change read (make h k).1 (make h k).2 (some s) = _
      rw [hp, hm]
    rw [hstep]
    have hrest := rest_spec vs2 (n := min p.len s.len) (by omega)
    refine ⟨_, rfl, hrest.1, ?_, ?_⟩
    · refine hrest.2.trans ?_
      rw [hb2, hb]
      simp only [asIs, hl]
      by_cases hlt : k < s.len
      · have : min p.len s.len = k := by omega
        rw [if_pos hlt, this, if_pos hlt]
      · rw [if_neg hlt, if_neg (by omega)]
    · simp only [asIs, ← hdata]
      rfl

theorem run_some {h : Heap} {s : Slice} (v : Valid h s) (os : List (Op × Nat)) :
    ∃ s', (run h (some s) os).2.1 = some s' ∧ Valid (run h (some s) os).1 s' ∧
      bytes (run h (some s) os).1 s' = (asIsRun (bytes h s) (os.map Prod.fst)).1 ∧
      (run h (some s) os).2.2 = (asIsRun (bytes h s) (os.map Prod.fst)).2 := by
  induction os generalizing h s with
  | nil => exact ⟨s, rfl, v, rfl, rfl⟩
  | cons x os ih =>
    obtain ⟨o, e⟩ := x
    obtain ⟨s1, h1, v1, b1, r1⟩ := step_some v o e
    obtain ⟨s2, h2, v2, b2, r2⟩ := ih v1
    simp only [run, List.map_cons, asIsRun]
    rw [h1, r1]
    refine ⟨s2, h2, v2, ?_, ?_⟩
    · rw [b2, b1]
    · rw [r2, b1]

/-! ### Views -/

/-- `v` is a window that no write of the buffer `s` touches. -/
def Safe (h : Heap) (v s : Slice) : Prop := Valid h v ∧ Valid h s ∧ (v.arr = s.arr → v.off + v.len ≤ s.off + s.len)

theorem append_keeps {h : Heap} {v s : Slice} (hs : Safe h v s) (bs : List UInt8) (e : Nat) :
    Safe (append h s bs e).1 v (append h s bs e).2 ∧ bytes (append h s bs e).1 v = bytes h v := by
  obtain ⟨hv, hs', hd⟩ := hs
  have vs := (append_spec hs' bs e).1
  unfold append at vs ⊢
  split at vs
  · rename_i hfit
    rw [if_pos hfit]
    have hpos : s.off + s.len + bs.length ≤ (h.get s.arr).length := by
      have := hs'.cap; omega
    refine ⟨⟨valid_write hv _ _ _ hpos, vs, fun he => ?_⟩, ?_⟩
    · have := hd he; simp only; omega
    · by_cases he : v.arr = s.arr
      · have := bytes_write_behind hv (s.off + s.len) bs (hd he)
        rw [he] at this
        exact this
      · exact bytes_write_ne h _ _ he
  · rename_i hfit
    rw [if_neg hfit]
    refine ⟨⟨valid_alloc hv _, vs, fun he => ?_⟩, ?_⟩
    · have := hv.arr
      simp only [alloc_snd] at he
      omega
    · simp only [bytes]
      rw [get_alloc_old _ _ hv.arr]

theorem step_keeps {h : Heap} {v s : Slice} (hs : Safe h v s) (o : Op) (e : Nat) (ho : o ≠ .reset) :
    ∃ s', (step h (some s) o e).2.1 = some s' ∧ Safe (step h (some s) o e).1 v s' ∧ bytes (step h (some s) o e).1 v = bytes h v := by
  cases o with
  | write p => exact ⟨_, rfl, append_keeps hs p e⟩
  | writeString p => exact ⟨_, rfl, append_keeps hs p e⟩
  | writeInt32 i => exact ⟨_, rfl, append_keeps hs _ e⟩
  | writeByte c => exact ⟨_, rfl, append_keeps hs [c] e⟩
  | reset => exact absurd rfl ho
  | bytes => exact ⟨s, rfl, hs, rfl⟩
  | string => exact ⟨s, rfl, hs, rfl⟩
  | len => exact ⟨s, rfl, hs, rfl⟩
  | read k =>
    obtain ⟨hv, hs', hd⟩ := hs
    have vp := valid_make h k
    have vs := valid_make_old hs' k
    have vv := valid_make_old hv k
    have hne : v.arr ≠ (make h k).2.arr := by
      have := hv.arr
      change v.arr ≠ h.arrays.length
      omega
    have hb := bytes_make_old hv k
    have hw : (make h k).2.off + ((bytes (make h k).1 s).take (min (make h k).2.len s.len)).length ≤ ((make h k).1.get (make h k).2.arr).length := by
      have := vp.cap; have := vp.len
      have : ((bytes (make h k).1 s).take (min (make h k).2.len s.len)).length ≤ (make h k).2.len := by
        rw [List.length_take]; omega
      omega
    have vs2 := valid_write vs (make h k).2.arr (make h k).2.off _ hw
    refine ⟨_, rfl, ⟨valid_write vv _ _ _ hw, ?_, ?_⟩, ?_⟩
    · exact (rest_spec vs2 (n := min (make h k).2.len s.len) (by omega)).1
    · change v.arr = (rest s (min (make h k).2.len s.len)).arr → _ ≤ (rest s (min (make h k).2.len s.len)).off + (rest s (min (make h k).2.len s.len)).len
      unfold rest
      split
      · intro he; have := hd he; simp only; omega
      · exact hd
    · simp only [step, read, copy]
      rw [bytes_write_ne _ _ _ hne, hb]

theorem run_keeps {h : Heap} {v s : Slice} (hs : Safe h v s) (os : List (Op × Nat)) (ho : ∀ x ∈ os, x.1 ≠ .reset) :
    bytes (run h (some s) os).1 v = bytes h v := by
  induction os generalizing h s with
  | nil => rfl
  | cons x os ih =>
    obtain ⟨o, e⟩ := x
    obtain ⟨s1, h1, k1, b1⟩ := step_keeps hs o e (ho (o, e) (by simp))
    simp only [run]
    rw [h1, ih k1 fun y hy => ho y (List.mem_cons_of_mem _ hy), b1]

end Gofer.Buffer
