import Verif.Model.GoSlice

namespace Gofer.GoSlice

theorem length_bytes {h : Heap} {s : Slice} (v : Valid h s) : (bytes h s).length = s.len := by
  have := v.cap; have := v.len
  simp [bytes]; omega

theorem get_write_ne (h : Heap) {i j : Nat} (pos : Nat) (d : List UInt8) (hij : j ≠ i) : (h.write i pos d).get j = h.get j := by
  unfold Heap.write Heap.get
  simp only [List.getD_eq_getElem?_getD]
  rw [List.getElem?_set_ne (fun e => hij e.symm)]

theorem get_write_self (h : Heap) {i : Nat} (pos : Nat) (d : List UInt8) (hi : i < h.arrays.length) :
    (h.write i pos d).get i = (h.get i).take pos ++ d ++ (h.get i).drop (pos + d.length) := by
  unfold Heap.write
  generalize hx : (h.get i).take pos ++ d ++ (h.get i).drop (pos + d.length) = x
  unfold Heap.get
  simp only [List.getD_eq_getElem?_getD]
  rw [List.getElem?_set_self hi]; rfl

theorem arrays_write (h : Heap) (i pos : Nat) (d : List UInt8) : (h.write i pos d).arrays.length = h.arrays.length := by
  simp [Heap.write]

theorem get_alloc_old (h : Heap) (d : List UInt8) {i : Nat} (hi : i < h.arrays.length) : (h.alloc d).1.get i = h.get i := by
  unfold Heap.alloc Heap.get
  simp only [List.getD_eq_getElem?_getD]
  rw [List.getElem?_append_left hi]

theorem get_alloc_new (h : Heap) (d : List UInt8) : (h.alloc d).1.get h.arrays.length = d := by
  unfold Heap.alloc Heap.get
  simp

theorem alloc_snd (h : Heap) (d : List UInt8) : (h.alloc d).2 = h.arrays.length := rfl
theorem alloc_len (h : Heap) (d : List UInt8) : (h.alloc d).1.arrays.length = h.arrays.length + 1 := by simp [Heap.alloc]

/-- The window `[off, off+n)` after writing `d` over its beginning. -/
theorem bytes_fill {h : Heap} {s : Slice} (v : Valid h s) {d : List UInt8} (hd : d.length = s.len) : bytes (fill h s d) s = d := by
  have := v.cap; have := v.len
  unfold bytes fill
  rw [get_write_self _ _ _ v.arr]
  have h1 : ((h.get s.arr).take s.off).length = s.off := by simp; omega
  rw [List.append_assoc, List.drop_append_of_le_length (by omega), List.drop_eq_nil_of_le (by omega), List.nil_append]
  rw [List.take_append_of_le_length (by omega), List.take_of_length_le (by omega)]

theorem valid_write {h : Heap} {s : Slice} (v : Valid h s) (i pos : Nat) (d : List UInt8)
    (hp : pos + d.length ≤ (h.get i).length) : Valid (h.write i pos d) s := by
  refine ⟨by rw [arrays_write]; exact v.arr, ?_, v.len⟩
  by_cases hi : s.arr = i
  · subst hi
    rw [get_write_self _ _ _ v.arr]
    have := v.cap
    simp; omega
  · rw [get_write_ne _ _ _ hi]; exact v.cap

theorem valid_alloc {h : Heap} {s : Slice} (v : Valid h s) (d : List UInt8) : Valid (h.alloc d).1 s :=
  ⟨by rw [alloc_len]; exact Nat.lt_succ_of_lt v.arr, by rw [get_alloc_old _ _ v.arr]; exact v.cap, v.len⟩

/-- What `append` gives. -/
theorem append_spec {h : Heap} {s : Slice} (v : Valid h s) (bs : List UInt8) (extra : Nat) :
    Valid (append h s bs extra).1 (append h s bs extra).2 ∧
    bytes (append h s bs extra).1 (append h s bs extra).2 = bytes h s ++ bs ∧
    (append h s bs extra).2.len = s.len + bs.length := by
  have hl := length_bytes v
  have hc := v.cap
  have hcl := v.len
  unfold append
  split
  · rename_i hfit
    have hpos : s.off + s.len + bs.length ≤ (h.get s.arr).length := by omega
    have v' := valid_write v s.arr (s.off + s.len) bs hpos
    refine ⟨⟨v'.arr, v'.cap, by simp only; exact hfit⟩, ?_, rfl⟩
    simp only [bytes]
    rw [get_write_self _ _ _ v.arr]
    have h1 : ((h.get s.arr).take (s.off + s.len)).length = s.off + s.len := by simp; omega
    rw [List.append_assoc, List.drop_append_of_le_length (by omega)]
    have h2 : ((h.get s.arr).take (s.off + s.len)).drop s.off = bytes h s := by
      rw [bytes, List.drop_take]; congr 1; omega
    rw [h2, ← List.append_assoc, List.take_append_of_le_length (by rw [List.length_append, hl]; exact Nat.le_refl _)]
    rw [List.take_of_length_le (by rw [List.length_append, hl]; exact Nat.le_refl _)]; rfl
  · refine ⟨⟨by simp only [alloc_snd, alloc_len]; omega, ?_, by simp only; omega⟩, ?_, rfl⟩
    · simp only [alloc_snd]
      rw [get_alloc_new]; simp [hl]; omega
    · simp only [bytes, alloc_snd]
      rw [get_alloc_new]
      change List.take (s.len + bs.length) (List.drop 0 (bytes h s ++ bs ++ List.replicate extra 0)) = bytes h s ++ bs
      rw [List.drop_zero, List.take_append_of_le_length (by rw [List.length_append, hl]; exact Nat.le_refl _)]
      rw [List.take_of_length_le (by rw [List.length_append, hl]; exact Nat.le_refl _)]

end Gofer.GoSlice
