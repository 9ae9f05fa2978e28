import Verif.Proof.Mmap

/-! # Mapped files: properties C53–C55, C85 -/
namespace Gofer.Props.Mmap
open Gofer.Mmap Gofer.Spec.Mmap

/-- `s` is reached by an execution from a newly mapped file, the start offset not being negative. -/
def Reached (page : Nat) (file : List UInt8) (o : BitVec 64) (as : List Act) (s : St) : Prop :=
  file.length < maxLen ∧ 0 ≤ o.toInt ∧ ∃ s0, newMMAP file o = some s0 ∧ exec page s0 as = some s

theorem Reached.inv {page : Nat} {file : List UInt8} {o : BitVec 64} {as : List Act} {s : St} (h : Reached page file o as s) :
    Inv file s ∧ s.mem.length = file.length ∧ file.length < maxLen ∧ s.offset.toNat ≤ s.mem.length := by
  obtain ⟨hf, ho, s0, hn, he⟩ := h
  have := inv_exec hf (inv_init hf hn ho) he
  exact ⟨this, this.len, hf, by rw [this.len]; exact this.off⟩

/-- A file of four bytes, three calls: two appends, interleaved, and one that is too long. -/
def sampleRun : List Act :=
  [.append false [1], .append true [2, 3], .copy 1, .copy 0, .finish 0, .append false [9, 9], .copy 1, .msync 1]

theorem sample_reached : Reached 2 [0, 0, 0, 0] 0 sampleRun
    ⟨3, [1, 2, 3, 0], [1, 2, 3, 0], [⟨0, [1], true, false, 1, true⟩, ⟨1, [2, 3], true, true, 2, true⟩]⟩ :=
  ⟨by simp [maxLen], by decide, ⟨0, [0, 0, 0, 0], [0, 0, 0, 0], []⟩, by decide +kernel, by decide +kernel⟩

/-! ### C53 -/

/-- C53. In any execution, with any `WriteAt` calls too, every region lies inside the file and an `Append` gets a region
behind all regions handed out before it. -/
theorem C53_disjoint (page : Nat) (file : List UInt8) (o : BitVec 64) (as : List Act) (s : St) (h : Reached page file o as s) :
    (∀ e ∈ s.log, e.start + e.data.length ≤ file.length) ∧
    ∀ (i j : Nat) (e f : Entry), i < j → s.log[i]? = some e → s.log[j]? = some f → f.append = true → e.start + e.data.length ≤ f.start := by
  obtain ⟨hi, _, _, _⟩ := h.inv
  exact ⟨fun e he => Nat.le_trans (hi.inside e he) hi.off, hi.order⟩

/-- C53. A call that has returned finds its data in the mapping, unless its region has an address in common with that of
another call. -/
theorem C53_data (page : Nat) (file : List UInt8) (o : BitVec 64) (as : List Act) (s : St) (h : Reached page file o as s)
    (i : Nat) (e : Entry) (hi : s.log[i]? = some e) (hr : e.returned = true) (hal : Alone s.log i e) : Holds s.mem e.start e.data := by
  obtain ⟨hv, _, _, _⟩ := h.inv
  exact holds_of fun k hk => hv.data i e hi hal k (by rw [hv.ret e (List.mem_of_getElem? hi) hr]; exact hk)

theorem alone_of_append {file : List UInt8} {s : St} (hv : Inv file s) (hall : ∀ e ∈ s.log, e.append = true) {i : Nat} {e : Entry}
    (hi : s.log[i]? = some e) : Alone s.log i e := by
  intro j f hj hf a ha hb
  simp only [In] at ha hb
  rcases Nat.lt_or_gt_of_ne hj with hlt | hlt
  · have := hv.order j i f e hlt hf hi (hall e (List.mem_of_getElem? hi)); omega
  · have := hv.order i j e f hlt hi hf (hall f (List.mem_of_getElem? hf)); omega

/-- C53. With `Append` and `AppendSync` only, the regions lie back to back from the start offset, and every call that has
returned finds its data in the mapping. -/
theorem C53_append_only (page : Nat) (file : List UInt8) (o : BitVec 64) (as : List Act) (s : St) (h : Reached page file o as s)
    (hw : ∀ a ∈ as, NotWriteAt a) :
    BackToBack o.toNat s.log ∧ ∀ e ∈ s.log, e.returned = true → Holds s.mem e.start e.data := by
  have h' := h
  obtain ⟨hf, ho, s0, hn, he⟩ := h'
  have h0 : AInv o.toNat s0 := by
    unfold newMMAP at hn
    split at hn
    · cases hn
    · split at hn
      · cases hn
      · simp only [Option.some.injEq] at hn
        subst hn
        exact ⟨by simp, trivial, by simp⟩
  have ha := ainv_exec hf (inv_init hf hn ho) h0 hw he
  refine ⟨ha.btb, fun e hm hr => ?_⟩
  obtain ⟨i, hi⟩ := List.mem_iff_getElem?.1 hm
  exact C53_data page file o as s h i e hi hr (alone_of_append h.inv.1 ha.all hi)

example : (∀ a ∈ sampleRun, NotWriteAt a) ∧ Holds [1, 2, 3, 0] 1 [2, 3] := by
  refine ⟨?_, rfl⟩
  intro a ha
  simp only [sampleRun, List.mem_cons, List.not_mem_nil, or_false] at ha
  rcases ha with rfl | rfl | rfl | rfl | rfl | rfl | rfl | rfl <;> trivial

/-- C53, why the start offset must not be negative: `NewMMAP` accepts it and the first `Append` panics. -/
theorem C53_negative_start : ∃ s, newMMAP [0, 0] (-1) = some s ∧ appendStart s [7] = (.panic, 0) :=
  ⟨⟨-1, [0, 0], [0, 0], []⟩, by decide +kernel, by decide +kernel⟩

/-! ### C54 -/

/-- C54. `Append` at any time: if the data does not fit behind the offset, it is an error and nothing changes; otherwise it
gets the region at the offset. It never panics. -/
theorem C54_append (page : Nat) (file : List UInt8) (o : BitVec 64) (as : List Act) (s : St) (h : Reached page file o as s)
    (bs : List UInt8) (hb : bs.length < maxLen) :
    (file.length < s.offset.toNat + bs.length → appendStart s bs = (.error, s.offset) ∧ ∀ sync, act page s (.append sync bs) = some s) ∧
    (s.offset.toNat + bs.length ≤ file.length → (appendStart s bs).1 = .reserved s.offset.toNat ∧
      (appendStart s bs).2.toNat = s.offset.toNat + bs.length) := by
  obtain ⟨_, hl, hf, ho⟩ := h.inv
  have key := appendStart_eq s bs (by omega) hb ho
  rw [hl] at key
  constructor
  · intro hlt
    rw [if_pos hlt] at key
    refine ⟨key, fun sync => ?_⟩
    simp [act, hb, key, begin]
  · intro hle
    rw [if_neg (by omega)] at key
    rw [key]
    exact ⟨rfl, add_toNat (by omega) (by omega)⟩

/-- C54, as stated for `WriteAt`: data that would pass the end of the file gives an error and changes nothing. -/
def C54_claim : Prop := ∀ (page : Nat) (file : List UInt8) (o : BitVec 64) (as : List Act) (s : St), Reached page file o as s →
  ∀ (bs : List UInt8) (w : BitVec 64), bs.length < maxLen → (file.length : Int) < w.toInt + bs.length →
    writeAtStart s bs w = (.error, s.offset)

/-- C54 is false: at the largest int the sum overflows and the call panics. -/
theorem C54_claim_false : ¬ C54_claim := by
  intro h
  have := h 2 [0, 0, 0, 0] 0 sampleRun _ sample_reached [1] 0x7fffffffffffffff (by simp [maxLen]) (by decide)
  revert this
  decide +kernel

/-- C54, what holds for `WriteAt` at any offset that is not negative and whose end is an int: too far is an error and nothing
changes; otherwise the region is the one asked for, inside the file. Missing: negative offsets and overflow panic. -/
theorem C54_writeAt_partial (page : Nat) (file : List UInt8) (o : BitVec 64) (as : List Act) (s : St) (h : Reached page file o as s)
    (bs : List UInt8) (w : BitVec 64) (hb : bs.length < maxLen) (h0 : 0 ≤ w.toInt) (hw : w.toInt + bs.length < 2 ^ 63) :
    (file.length < w.toNat + bs.length → writeAtStart s bs w = (.error, s.offset) ∧ ∀ sync, act page s (.writeAt sync bs w) = some s) ∧
    (w.toNat + bs.length ≤ file.length → (writeAtStart s bs w).1 = .reserved w.toNat ∧
      (writeAtStart s bs w).2.toNat = max s.offset.toNat (w.toNat + bs.length)) := by
  obtain ⟨_, hl, hf, ho⟩ := h.inv
  have key := writeAtStart_eq s bs w (by omega) hb ho
  have hn := toNat_toInt h0
  rw [hl, if_neg (by omega)] at key
  constructor
  · intro hlt
    rw [if_pos (by omega)] at key
    refine ⟨key, fun sync => ?_⟩
    simp [act, hb, key, begin]
  · intro hle
    rw [if_neg (by omega), if_neg (by omega)] at key
    rw [key]
    refine ⟨rfl, ?_⟩
    have := add_toNat' (o := w) (l := bs.length) (n := file.length) hf h0 (by omega)
    simp only
    split <;> omega

example : (0x2 : BitVec 64).toInt + ([5, 6] : List UInt8).length < 2 ^ 63 ∧
    (writeAtStart ⟨3, [1, 2, 3, 0], [1, 2, 3, 0], []⟩ [5, 6] 2) = (.reserved 2, 4) ∧
    (writeAtStart ⟨3, [1, 2, 3, 0], [1, 2, 3, 0], []⟩ [5, 6] 3) = (.error, 3) := by
  refine ⟨by decide, by decide +kernel, by decide +kernel⟩

/-- C54, the panics exactly: negative offsets whose end is inside the file, and offsets whose end is not an int. A call of the
first kind may have moved the append offset before it panics. -/
theorem C54_panic_iff (page : Nat) (file : List UInt8) (o : BitVec 64) (as : List Act) (s : St) (h : Reached page file o as s)
    (bs : List UInt8) (w : BitVec 64) (hb : bs.length < maxLen) :
    (writeAtStart s bs w).1 = .panic ↔ (w.toInt < 0 ∧ w.toInt + bs.length ≤ file.length) ∨ 2 ^ 63 ≤ w.toInt + bs.length := by
  obtain ⟨_, hl, hf, ho⟩ := h.inv
  have key := writeAtStart_eq s bs w (by omega) hb ho
  rw [hl] at key
  rw [key]
  unfold maxLen at hf hb
  split
  · simp; omega
  · split
    · simp; omega
    · split
      · simp; omega
      · simp; omega

/-- C54: the moved offset. After the panic, an `Append` leaves a gap. -/
theorem C54_negative_moves_offset : writeAtStart ⟨0, [0, 0, 0, 0], [0, 0, 0, 0], []⟩ [7, 7, 7] (-1) = (.panic, 2) := by decide +kernel

/-- C54. Bytes outside the regions of all calls never change, neither in the mapping nor on the disk. -/
theorem C54_frame (page : Nat) (file : List UInt8) (o : BitVec 64) (as : List Act) (s : St) (h : Reached page file o as s) (a : Nat)
    (ha : ∀ e ∈ s.log, ¬ In a e.start e.data.length) : s.mem[a]? = file[a]? ∧ s.disk[a]? = file[a]? :=
  h.inv.1.frame a ha

example : ∀ e ∈ [(⟨0, [1], true, false, 1, true⟩ : Entry), ⟨1, [2, 3], true, true, 2, true⟩], ¬ In 3 e.start e.data.length := by
  simp [In]

/-! ### C55 -/

/-- C55, as stated: for any region inside the file, the flushed range begins at a page boundary and ends with the data. -/
def C55_claim : Prop := ∀ page size n length : Nat, 0 < page → n + length ≤ size → 0 < size →
  ∃ a l, syncUnix page size n length = some (a, l) ∧ page ∣ a ∧ a ≤ n ∧ n < a + page ∧ a + l = n + length

/-- C55 is false: an empty `AppendSync` at the end of a file of whole pages panics. -/
theorem C55_claim_false : ¬ C55_claim := by
  intro h
  obtain ⟨a, l, he, _⟩ := h 4096 4096 4096 0 (by decide) (by decide) (by decide)
  have : syncUnix 4096 4096 4096 0 = none := by decide
  rw [this] at he
  cases he

/-- C55, what holds: if the data is not empty, or does not begin at the end of the file, the flushed range begins at the
start of the page of the first byte and ends with the data. Missing: the empty write at the end. -/
theorem C55_range_partial (page size n length : Nat) (hp : 0 < page) (hn : n + length ≤ size) (hne : n < size) :
    ∃ a l, syncUnix page size n length = some (a, l) ∧ page ∣ a ∧ a ≤ n ∧ n < a + page ∧ a + l = n + length := by
  have h1 := aligned_le page n
  have h2 : n < n / page * page + page := by
    have h3 := Nat.div_add_mod n page
    have := Nat.mod_lt n hp
    rw [Nat.mul_comm] at h3
    omega
  refine ⟨n / page * page, n - n / page * page + length, ?_, Nat.dvd_mul_left _ _, h1, h2, by omega⟩
  simp only [syncUnix]
  rw [if_pos (by omega)]

example : syncUnix 4096 10000 5000 100 = some (4096, 1004) ∧ syncUnix 4096 4096 4096 0 = none := by decide

/-- C55, when it panics: exactly for data that begins at the end of a file of whole pages (so it is empty). -/
theorem C55_panic_iff (page size n length : Nat) (hn : n + length ≤ size) :
    syncUnix page size n length = none ↔ n = size ∧ length = 0 ∧ page ∣ size := by
  simp only [syncUnix]
  have h1 := aligned_le page n
  split
  · rename_i hlt
    simp only [reduceCtorEq, false_iff, not_and]
    rintro rfl _ hd
    rw [Nat.div_mul_cancel hd] at hlt
    omega
  · rename_i hge
    simp only [true_iff]
    have h2 : n / page * page = n := by omega
    refine ⟨by omega, by omega, ?_⟩
    have : n = size := by omega
    rw [← this]
    exact ⟨n / page, by rw [Nat.mul_comm]; exact h2.symm⟩

/-- C55 on Windows: the range is exactly the data; every empty write panics. -/
theorem C55_windows (size n length : Nat) (hn : n + length ≤ size) :
    syncWin size n length = if length = 0 then none else some (n, length) := by
  unfold syncWin
  by_cases h : length = 0
  · simp [h]
  · simp only [h, if_false]
    rw [if_pos (by omega)]

example : syncWin 10 3 4 = some (3, 4) ∧ syncWin 10 3 0 = none := by decide

/-! ### C85 -/

/-- C85. A Sync call that has returned finds its data on the disk, then and ever after, in any execution and whatever else the
kernel writes back, unless its region has an address in common with that of another call. -/
theorem C85_durable (page : Nat) (file : List UInt8) (o : BitVec 64) (as : List Act) (s : St) (h : Reached page file o as s)
    (i : Nat) (e : Entry) (hi : s.log[i]? = some e) (hr : e.returned = true) (hs : e.sync = true) (hal : Alone s.log i e) :
    Holds s.disk e.start e.data := by
  obtain ⟨hv, _, _, _⟩ := h.inv
  exact holds_of fun k hk => hv.ddata i e hi hal hr hs k hk

/-- C85. With `Append` and `AppendSync` only, every `AppendSync` that has returned finds its data on the disk. -/
theorem C85_append_only (page : Nat) (file : List UInt8) (o : BitVec 64) (as : List Act) (s : St) (h : Reached page file o as s)
    (hw : ∀ a ∈ as, NotWriteAt a) : ∀ e ∈ s.log, e.returned = true → e.sync = true → Holds s.disk e.start e.data := by
  have h' := h
  obtain ⟨hf, ho, s0, hn, he⟩ := h'
  have h0 : AInv o.toNat s0 := by
    unfold newMMAP at hn
    split at hn
    · cases hn
    · split at hn
      · cases hn
      · simp only [Option.some.injEq] at hn
        subst hn
        exact ⟨by simp, trivial, by simp⟩
  have ha := ainv_exec hf (inv_init hf hn ho) h0 hw he
  intro e hm hr hs
  obtain ⟨i, hi⟩ := List.mem_iff_getElem?.1 hm
  exact C85_durable page file o as s h i e hi hr hs (alone_of_append h.inv.1 ha.all hi)

/-- C85, the other calls give no such promise: an `Append` may have returned with nothing on the disk. -/
theorem C85_append_not_durable : ∃ s, Reached 2 [0, 0, 0, 0] 0 [.append false [1], .copy 0, .finish 0] s ∧
    (∀ e ∈ s.log, e.returned = true) ∧ s.mem = [1, 0, 0, 0] ∧ s.disk = [0, 0, 0, 0] :=
  ⟨⟨1, [1, 0, 0, 0], [0, 0, 0, 0], [⟨0, [1], true, false, 1, true⟩]⟩,
    ⟨by simp [maxLen], by decide, ⟨0, [0, 0, 0, 0], [0, 0, 0, 0], []⟩, by decide +kernel, by decide +kernel⟩, by simp, rfl, rfl⟩

end Gofer.Props.Mmap
