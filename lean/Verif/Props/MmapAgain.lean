import Verif.Proof.MmapAgain

/-! # A file that is mapped more than once: C254, C255 -/
namespace Gofer.Props.MmapAgain
open Gofer.Mmap Gofer.Spec.Mmap

/-! ### C254 -/

/-- What the calls wrote, one after another. -/
def written (log : List Entry) : List UInt8 := (log.map fun e => e.data).flatten

/-- **C254**, the claim: a file that was filled by `Append`s up to some place, and closed, can be mapped again at this place. -/
def C254_claim : Prop :=
  ∀ (page : Nat) (file : List UInt8) (o : Nat) (ass : List (List Act)) (log : List Entry) (file' : List UInt8) (o' : Nat), file.length < maxLen → o < file.length →
    (∀ as ∈ ass, ∀ a ∈ as, NotWriteAt a) → sessions page file o ass = some (log, file', o') → (newMMAP file' (BitVec.ofNat 64 o')).isSome

/-- **C254 is false**: a file that is full cannot be mapped at its end, though it could be mapped as long as one byte was free. -/
theorem C254_claim_false : ¬ C254_claim := by
  intro h
  have := h 4096 [0, 0] 0 [[.append false [7, 8], .copy 0, .copy 0, .finish 0]] [⟨0, [7, 8], true, false, 2, true⟩] [7, 8] 2
    (by simp [maxLen]) (by simp)
    (by intro as ha a hb; simp only [List.mem_singleton] at ha; subst ha; simp only [List.mem_cons, List.not_mem_nil, or_false] at hb; rcases hb with rfl | rfl | rfl | rfl <;> trivial)
    (by decide +kernel)
  revert this
  decide +kernel

/-- **C254, the part that holds**: however often a file is mapped, filled by `Append`s in any interleaving and closed, what was written
is in the file, in the order in which regions were handed out, without gaps from the first start offset on, and the rest of the file is as
it was. Each start returned is the place of the data. The file can be mapped again at the end unless it is full. Missing: files that are full
(false). -/
theorem C254_sessions_partial (page : Nat) (file : List UInt8) (o : Nat) (ass : List (List Act)) (log : List Entry) (file' : List UInt8) (o' : Nat)
    (hf : file.length < maxLen) (ho : o ≤ file.length) (hw : ∀ as ∈ ass, ∀ a ∈ as, NotWriteAt a) (h : sessions page file o ass = some (log, file', o')) :
    file' = file.take o ++ written log ++ file.drop (o + (written log).length) ∧ o' = o + (written log).length ∧
    (∀ e ∈ log, Holds file' e.start e.data) ∧ BackToBack o log ∧
    ((newMMAP file' (BitVec.ofNat 64 o')).isSome ↔ o' < file.length) := by
  obtain ⟨h1, h2, h3, h4, h5⟩ := sessions_eq hf ho hw h
  have hle : o + (flat log).length ≤ file.length := by omega
  have hl : file'.length = file.length := by rw [h5]; exact length_over _ _ _ hle
  refine ⟨h5, h3, ?_, h2, ?_⟩
  · intro e he
    -- the data of one call within all that was written
    have key : ∀ (l : List Entry) (o : Nat) (m : List UInt8), BackToBack o l → (∀ k, k < (flat l).length → m[o + k]? = (flat l)[k]?) →
        ∀ e ∈ l, ∀ k, k < e.data.length → m[e.start + k]? = e.data[k]? := by
      intro l
      induction l with
      | nil => simp
      | cons f l ih =>
        intro o m hb hm e he k hk
        have hfl : flat (f :: l) = f.data ++ flat l := by simp [flat]
        rw [hfl] at hm
        rcases List.mem_cons.1 he with rfl | he
        · rw [hb.1, hm k (by simp; omega), List.getElem?_append_left hk]
        · refine ih (o + f.data.length) m hb.2 ?_ e he k hk
          intro j hj
          have := hm (f.data.length + j) (by simp; omega)
          rw [List.getElem?_append_right (by omega)] at this
          rw [Nat.add_assoc, this]
          congr 1
          omega
    refine holds_of fun k hk => key log o file' h2 ?_ e he k hk
    intro k hk
    rw [h5, getElem?_over _ _ _ hle, if_pos (by omega)]
    congr 1
    omega
  · rw [newMMAP_iff (by rw [hl]; exact hf) (by rw [hl]; exact h4), hl]
    split <;> simp_all

/-- Two sessions, the second with two calls that overlap in time. -/
example : sessions 4096 [0, 0, 0, 0, 0] 1 [[.append false [7], .copy 0, .finish 0], [.append false [8], .append true [9], .copy 1, .copy 0, .msync 1, .finish 0]] =
    some ([⟨1, [7], true, false, 1, true⟩, ⟨2, [8], true, false, 1, true⟩, ⟨3, [9], true, true, 1, true⟩], [0, 7, 8, 9, 0], 4) := by decide +kernel

/-! ### C255 -/

/-- **C255**, the claim: `Append`s through several mappings of a file do not overwrite each other: a call that has returned finds its
data in the file. -/
def C255_claim : Prop :=
  ∀ (page : Nat) (file : List UInt8) (os : List (BitVec 64)) (as : List (Nat × Act)) (s0 s : Many), file.length < maxLen → (∀ o ∈ os, 0 ≤ o.toInt) →
    (∀ a ∈ as, NotWriteAt a.2) → newMany file os = some s0 → execMany page s0 as = some s →
    ∀ e ∈ s.log, e.returned = true → Holds s.mem e.start e.data

/-- Two mappings, one `Append` through each, one after the other: both return 0. -/
def twice : List (Nat × Act) := [(0, .append false [7]), (0, .copy 0), (0, .finish 0), (1, .append false [8]), (1, .copy 1), (1, .finish 1)]

/-- **C255 is false.** -/
theorem C255_claim_false : ¬ C255_claim := by
  intro h
  have := h 4096 [0, 0] [0, 0] twice ⟨[0, 0], [0, 0], [0, 0], [], []⟩
    ⟨[1, 1], [8, 0], [0, 0], [⟨0, [7], true, false, 1, true⟩, ⟨0, [8], true, false, 1, true⟩], [0, 1]⟩
    (by simp [maxLen]) (by intro o ho; simp only [List.mem_cons, List.not_mem_nil, or_false, or_self] at ho; subst ho; simp)
    (by intro a ha; simp only [twice, List.mem_cons, List.not_mem_nil, or_false] at ha; rcases ha with rfl | rfl | rfl | rfl | rfl | rfl <;> trivial)
    (by decide +kernel) (by decide +kernel) ⟨0, [7], true, false, 1, true⟩ (by simp) rfl
  revert this
  unfold Holds
  decide +kernel

/-- **C255, what always holds**: with any number of mappings and any calls through them, all regions lie in the file, `Append`s
through one mapping get regions behind all that was handed out through the same mapping, and a call that has returned finds its data in the
file unless its region has an address in common with another one's. -/
theorem C255_same_mapping (page : Nat) (file : List UInt8) (os : List (BitVec 64)) (as : List (Nat × Act)) (s0 s : Many) (hf : file.length < maxLen)
    (hos : ∀ o ∈ os, 0 ≤ o.toInt) (hn : newMany file os = some s0) (he : execMany page s0 as = some s) :
    (∀ e ∈ s.log, e.start + e.data.length ≤ file.length) ∧
    (∀ (i j k : Nat) (e f : Entry), i < j → s.log[i]? = some e → s.log[j]? = some f → s.own[i]? = some k → s.own[j]? = some k → f.append = true →
      e.start + e.data.length ≤ f.start) ∧
    ∀ (i : Nat) (e : Entry), s.log[i]? = some e → e.returned = true → Alone s.log i e → Holds s.mem e.start e.data := by
  have h := minv_exec hf (minv_new hf hos hn) he
  refine ⟨fun e hm => ?_, h.order, fun i e hi hr hal => minv_data h hi hr hal⟩
  have hm' : unA e ∈ (asOne s).log := List.mem_map.2 ⟨e, hm, rfl⟩
  exact Nat.le_trans (h.inv.inside (unA e) hm') h.inv.off

/-- **C255, the part that holds**: if every mapping keeps to a part of the file of its own, `[lo k, hi k)`, the data of every `Append` that
has returned is in the file. Missing: mappings whose parts have a byte in common (false, see above). -/
theorem C255_parts_partial (page : Nat) (file : List UInt8) (os : List (BitVec 64)) (as : List (Nat × Act)) (s0 s : Many) (lo hi : Nat → Nat)
    (hf : file.length < maxLen) (hos : ∀ o ∈ os, 0 ≤ o.toInt) (hn : newMany file os = some s0) (he : execMany page s0 as = some s)
    (ha : ∀ e ∈ s.log, e.append = true)
    (parts : ∀ k l, k ≠ l → hi k ≤ lo l ∨ hi l ≤ lo k)
    (keep : ∀ (i k : Nat) (e : Entry), s.log[i]? = some e → s.own[i]? = some k → lo k ≤ e.start ∧ e.start + e.data.length ≤ hi k)
    (e : Entry) (hm : e ∈ s.log) (hr : e.returned = true) : Holds s.mem e.start e.data := by
  have h := minv_exec hf (minv_new hf hos hn) he
  obtain ⟨_, ord, dat⟩ := C255_same_mapping page file os as s0 s hf hos hn he
  obtain ⟨i, hie⟩ := List.mem_iff_getElem?.1 hm
  refine dat i e hie hr ?_
  intro j f hj hjf a h1 h2
  simp only [In] at h1 h2
  have own : ∀ {i : Nat} {e : Entry}, s.log[i]? = some e → ∃ k, s.own[i]? = some k := by
    intro i e hi
    have : i < s.own.length := by rw [h.len]; exact (List.getElem?_eq_some_iff.1 hi).1
    exact ⟨_, List.getElem?_eq_getElem this⟩
  obtain ⟨k, hk⟩ := own hie
  obtain ⟨l, hl⟩ := own hjf
  by_cases hkl : k = l
  · subst hkl
    rcases Nat.lt_or_gt_of_ne hj with hlt | hlt
    · have := ord j i k f e hlt hjf hie hl hk (ha e hm); omega
    · have := ord i j k e f hlt hie hjf hk hl (ha f (List.mem_of_getElem? hjf)); omega
  · have k1 := keep i k e hie hk
    have k2 := keep j l f hjf hl
    rcases parts k l hkl with h | h <;> omega

/-- Two mappings, the first for the first two bytes, the other for the rest. -/
example : ∃ s0 s, newMany [0, 0, 0, 0] [0, 2] = some s0 ∧
    execMany 4096 s0 [(0, .append false [7]), (1, .append false [8, 9]), (1, .copy 1), (0, .copy 0), (0, .finish 0), (1, .copy 1), (1, .finish 1)] = some s ∧
    s.mem = [7, 0, 8, 9] ∧ s.own = [0, 1] ∧ s.log.all (fun e => e.append && e.returned) = true :=
  ⟨⟨[0, 2], [0, 0, 0, 0], [0, 0, 0, 0], [], []⟩,
    ⟨[1, 4], [7, 0, 8, 9], [0, 0, 0, 0], [⟨0, [7], true, false, 1, true⟩, ⟨2, [8, 9], true, false, 2, true⟩], [0, 1]⟩,
    by decide +kernel, by decide +kernel, rfl, rfl, by decide +kernel⟩

end Gofer.Props.MmapAgain
