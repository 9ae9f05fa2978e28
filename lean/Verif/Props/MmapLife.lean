import Verif.Proof.MmapLife
import Verif.Props.Mmap
/-!
# C141–C144: mapping, flushing and unmapping
-/
namespace Gofer.Props.MmapLife
open Gofer.Mmap Gofer.Spec.Mmap

/-- `l` is reached by an execution from a newly mapped file, the start offset not being negative. -/
def LReached (page : Nat) (file : List UInt8) (o : BitVec 64) (as : List LAct) (l : Life) : Prop :=
  file.length < maxLen ∧ 0 ≤ o.toInt ∧ ∃ s0, newMMAP file o = some s0 ∧ lexec page (live s0) as = some l

theorem newMMAP_log {file : List UInt8} {o : BitVec 64} {s0 : St} (h : newMMAP file o = some s0) : s0.log = [] := by
  unfold newMMAP at h
  split at h
  · cases h
  · split at h
    · cases h
    · simp only [Option.some.injEq] at h; subst h; rfl

theorem LReached.wf {page : Nat} {file : List UInt8} {o : BitVec 64} {as : List LAct} {l : Life} (h : LReached page file o as l) : WF l := by
  obtain ⟨_, _, s0, hn, he⟩ := h
  exact lexec_inv (I := WF) (fun _ _ _ a b => wf_step a b) he (wf_live (newMMAP_log hn))

theorem LReached.inv {page : Nat} {file : List UInt8} {o : BitVec 64} {as : List LAct} {l : Life} (h : LReached page file o as l) :
    Inv file l.s := by
  obtain ⟨hf, ho, s0, hn, he⟩ := h
  exact linv hf he (inv_init hf hn ho)

/-- The calls of an execution with unmapping are an execution of `Model/Mmap.lean`: what C53, C54 and C85 say holds here too. -/
theorem LReached.calls {page : Nat} {file : List UInt8} {o : BitVec 64} {as : List LAct} {l : Life} (h : LReached page file o as l) :
    ∃ bs, Mmap.Reached page file o bs l.s ∧ ∀ b ∈ bs, .base b ∈ as ∨ ∃ k, b = .writeback k := by
  obtain ⟨hf, ho, s0, hn, he⟩ := h
  obtain ⟨bs, hb, hm⟩ := proj hf he (inv_init hf hn ho)
  exact ⟨bs, ⟨hf, ho, s0, hn, hb⟩, hm⟩

/-! ## C141 -/

/-- C141, full statement: if `NewMMAP` returns an error, the file is not mapped. -/
def C141_claim : Prop := ∀ (file : List UInt8) (o : BitVec 64), (newMMAPLife file o).1 = none → (newMMAPLife file o).2 = false

theorem C141_claim_false : ¬ C141_claim := by
  intro h
  have := h [1] 1 (by decide +kernel)
  revert this
  decide +kernel

/-- Exactly the start offsets at or past the end leave a mapping that nobody can remove. Missing from the full statement: these. -/
theorem C141_leak_partial (file : List UInt8) (o : BitVec 64) (hf : file.length < maxLen) :
    (newMMAPLife file o).1 = newMMAP file o ∧
    ((newMMAPLife file o).1 = none ∧ (newMMAPLife file o).2 = true ↔ 0 < file.length ∧ (file.length : Int) ≤ o.toInt) := by
  unfold newMMAPLife newMMAP
  by_cases h0 : file.length = 0
  · simp [h0]
  · simp only [h0, if_false]
    have hle := sle_iff (BitVec.ofNat 64 file.length) o
    rw [toInt_ofNat_lt (by unfold maxLen at hf; omega)] at hle
    by_cases h1 : (file.length : Int) ≤ o.toInt
    · rw [if_pos (hle.mpr h1)]
      exact ⟨by rw [if_pos (hle.mpr h1)], by simp only [true_and, and_true, h1]; exact ⟨fun _ => by omega, fun _ => trivial⟩⟩
    · have h2 : ¬ (BitVec.ofNat 64 file.length).sle o = true := fun h => h1 (hle.mp h)
      rw [if_neg h2]
      exact ⟨by rw [if_neg h2], by simp [h1]⟩

example : newMMAPLife [1, 2] 2 = (none, true) ∧ newMMAPLife [] 0 = (none, false) ∧
    newMMAPLife [1, 2] 1 = (some ⟨1, [1, 2], [1, 2], []⟩, true) := by decide +kernel

/-! ## C142 -/

/-- C142, full statement: whatever calls run when the file is unmapped or come after, none panics and the process is not killed. -/
def C142_claim : Prop := ∀ (page : Nat) (file : List UInt8) (o : BitVec 64) (as : List LAct) (l : Life), LReached page file o as l →
  l.crashed = false ∧ ∀ i : Nat, l.ph[i]? ≠ some .panicked

/-- `Append` after `Close`: it panics. -/
theorem C142_panic : LReached 2 [0, 0] 0 [.flush, .unmap, .base (.append false [7]), .slice 0]
    ⟨⟨1, [0, 0], [0, 0], [⟨0, [7], true, false, 0, false⟩]⟩, [.panicked], false, false⟩ :=
  ⟨by simp [maxLen], by decide, ⟨0, [0, 0], [0, 0], []⟩, by decide +kernel, by decide +kernel⟩

/-- `Close` while an `Append` copies: the process is killed. -/
theorem C142_crash : LReached 2 [0, 0] 0 [.base (.append false [7]), .slice 0, .flush, .unmap, .base (.copy 0)]
    ⟨⟨1, [0, 0], [0, 0], [⟨0, [7], true, false, 0, false⟩]⟩, [.sliced], false, true⟩ :=
  ⟨by simp [maxLen], by decide, ⟨0, [0, 0], [0, 0], []⟩, by decide +kernel, by decide +kernel⟩

theorem C142_claim_false : ¬ C142_claim := fun h => by
  have := (h _ _ _ _ _ C142_crash).1
  cases this

/-- Until the file is unmapped nothing of the kind happens. -/
theorem C142_before_partial (page : Nat) (file : List UInt8) (o : BitVec 64) (as : List LAct) (l : Life) (h : LReached page file o as l)
    (hu : .unmap ∉ as) : l.mapped = true ∧ l.crashed = false ∧ ∀ i : Nat, l.ph[i]? ≠ some .panicked := by
  obtain ⟨_, _, s0, _, he⟩ := h
  have key : ∀ (as : List LAct) (l0 l : Life), lexec page l0 as = some l → .unmap ∉ as →
      (l0.mapped = true ∧ l0.crashed = false ∧ ∀ i : Nat, l0.ph[i]? ≠ some .panicked) →
      (l.mapped = true ∧ l.crashed = false ∧ ∀ i : Nat, l.ph[i]? ≠ some .panicked) := by
    intro as
    induction as with
    | nil => intro l0 l h _ hi; simp only [lexec, Option.some.injEq] at h; subst h; exact hi
    | cons a as ih =>
      intro l0 l h hn hi
      obtain ⟨m, h1, h2⟩ := lexec_cons h
      refine ih m l h2 (fun hx => hn (List.mem_cons_of_mem _ hx)) ?_
      obtain ⟨hm, hc, hp⟩ := hi
      cases ltr_of_lact h1 with
      | reserve a hs ha hp' hm' hc' =>
        refine ⟨by rw [hm', hm], hc', ?_⟩
        intro i hx
        rw [hp'] at hx
        simp only [grow] at hx
        by_cases hlt : i < l0.ph.length
        · rw [List.getElem?_append_left hlt] at hx; exact hp i hx
        · rw [List.getElem?_append_right (by omega), List.getElem?_replicate] at hx
          split at hx <;> simp at hx
      | slice i e hi he hok hs hp' hm' hc' =>
        refine ⟨by rw [hm', hm], hc', ?_⟩
        intro j hx
        rw [hp'] at hx
        rcases getElem?_set_cases hx with ⟨_, h, _⟩ | ⟨_, h⟩
        · cases h
        · exact hp j h
      | sliceNil i e hi he hok => rw [hm] at hok; cases hok
      | copy i hi hmap hs hp' hm' hc' => exact ⟨by rw [hm', hm], hc', by rw [hp']; exact hp⟩
      | fault i s' hi hmap => rw [hm] at hmap; cases hmap
      | finish i hi hs hp' hm' hc' => exact ⟨by rw [hm', hm], hc', by rw [hp']; exact hp⟩
      | msync i hi hmap hs hp' hm' hc' => exact ⟨by rw [hm', hm], hc', by rw [hp']; exact hp⟩
      | msyncNil i hi ho hmap => rw [hm] at hmap; cases hmap
      | writeback a hs hp' hm' hc' => exact ⟨by rw [hm', hm], hc', by rw [hp']; exact hp⟩
      | flush hmap hs hp' hm' hc' => exact ⟨by rw [hm', hm], hc', by rw [hp']; exact hp⟩
      | flushNil hmap => rw [hm] at hmap; cases hmap
      | unmap => exact absurd (List.mem_cons_self) hn
  exact key as (live s0) l he hu ⟨rfl, rfl, by simp [live]⟩

/-- If no call is copying at the moment of unmapping, the process is never killed afterwards, whatever is called, and the contents stay.
Missing from the full statement: calls in the midst of copying, and the panics of C142_after_partial. -/
theorem C142_quiet_partial (page : Nat) (file : List UInt8) (o : BitVec 64) (as bs : List LAct) (m m' l : Life) (h : LReached page file o as m)
    (hq : ∀ (i : Nat) (e : Entry), m.s.log[i]? = some e → m.ph[i]? = some .sliced → e.pos = e.data.length)
    (hu : lact page m .unmap = some m') (hl : lexec page m' bs = some l) : l.crashed = false ∧ l.s.mem = m.s.mem := by
  have hs : Still m.s.mem m' := by
    have hw := wf_step h.wf (ltr_of_lact hu)
    cases ltr_of_lact hu with
    | unmap hs hp hm hc =>
      exact ⟨hw, hm, hc, by rw [hs], fun i e h1 h2 => hq i e (by rw [← hs]; exact h1) (by rw [← hp]; exact h2)⟩
  have := lexec_inv (I := Still m.s.mem) (fun _ _ _ a b => still_step a b) hl hs
  exact ⟨this.alive, this.mem⟩

/-- A call that has not got hold of the mapping before it is removed never returns success afterwards, if it has anything to write
(or not at offset 0): what is left for it are the error for want of room, the panic, or never getting on. -/
theorem C142_after_partial (page : Nat) (file : List UInt8) (o : BitVec 64) (as bs : List LAct) (m l : Life) (i : Nat) (e : Entry)
    (h : LReached page file o as m) (hu : m.mapped = false) (hi : m.ph[i]? ≠ some .sliced) (hl : lexec page m bs = some l)
    (he : l.s.log[i]? = some e) (hne : ¬ (e.start = 0 ∧ e.data = [])) : e.returned = false := by
  have := lexec_inv (I := Late i) (fun _ _ _ a b => late_step a b) hl ⟨h.wf, hu, fun _ _ _ => hi⟩
  exact this.wf.idle i e he (this.late e he hne)

example : (∃ l, LReached 2 [0, 0, 0] 0 [.base (.append false [7]), .slice 0, .base (.copy 0), .base (.finish 0), .flush, .unmap,
      .base (.append false [8]), .slice 1, .base (.append false [9, 9, 9])] l ∧
    l.s.disk = [7, 0, 0] ∧ l.ph = [.sliced, .panicked] ∧ l.s.offset = 2) :=
  ⟨⟨⟨2, [7, 0, 0], [7, 0, 0], [⟨0, [7], true, false, 1, true⟩, ⟨1, [8], true, false, 0, false⟩]⟩, [.sliced, .panicked], false, false⟩,
    ⟨by simp [maxLen], by decide, ⟨0, [0, 0, 0], [0, 0, 0], []⟩, by decide +kernel, by decide +kernel⟩, rfl, rfl, rfl⟩

/-! ## C143 -/

/-- C143. A call of any kind that has returned before `Close` (its `Flush`) finds its data on the disk from then on, whatever happens next,
unless its region has an address in common with that of another call. -/
theorem C143_close (page : Nat) (file : List UInt8) (o : BitVec 64) (as bs : List LAct) (m m' l : Life) (i : Nat) (e : Entry)
    (h : LReached page file o as m) (hm : m.mapped = true) (hi : m.s.log[i]? = some e) (hr : e.returned = true)
    (hfl : lact page m .flush = some m') (hl : lexec page m' bs = some l) (hal : Alone l.s.log i e) : Holds l.s.disk e.start e.data := by
  obtain ⟨hf, _⟩ := id h
  have hv := h.inv
  have hv' : Inv file m'.s := by
    have h1 : lexec page m [.flush] = some m' := by simp [lexec, hfl]
    exact linv hf h1 hv
  have hs : m'.s = { m.s with disk := m.s.mem } := by
    cases ltr_of_lact hfl with
    | flush _ hs => exact hs
    | flushNil hmap => rw [hm] at hmap; cases hmap
  obtain ⟨cs, hc, _⟩ := proj hf hl hv'
  have hal' : Alone m.s.log i e := by
    have := alone_back hc hal
    rw [hs] at this; exact this
  have hp := hv.ret e (List.mem_of_getElem? hi) hr
  have hd : OnDisk i e.start e.data m'.s := by
    rw [hs]
    have := hv.data i e hi hal'
    rw [hp] at this
    exact ⟨⟨e, hi, rfl, rfl, hp⟩, this, this⟩
  exact holds_of (onDisk_exec hf hv' hd rfl rfl hal hc).disk

/-- C143. With `Append` and `AppendSync` only, everything that has returned before `Close` is on the disk from then on. -/
theorem C143_append_only (page : Nat) (file : List UInt8) (o : BitVec 64) (as bs : List LAct) (m m' l : Life)
    (h : LReached page file o as m) (hm : m.mapped = true) (hfl : lact page m .flush = some m') (hl : lexec page m' bs = some l)
    (hw : ∀ a, .base a ∈ as ++ bs → NotWriteAt a) : ∀ e ∈ m.s.log, e.returned = true → Holds l.s.disk e.start e.data := by
  intro e he hr
  obtain ⟨i, hi⟩ := List.mem_iff_getElem?.1 he
  have hl1 : lexec page m (.flush :: bs) = some l := by simp [lexec, hfl, hl]
  have hreach : LReached page file o (as ++ .flush :: bs) l := by
    obtain ⟨hf, ho, s0, hn, hx⟩ := h
    refine ⟨hf, ho, s0, hn, ?_⟩
    clear hn hw
    generalize live s0 = l0 at hx
    induction as generalizing l0 with
    | nil => simp only [lexec, Option.some.injEq] at hx; subst hx; exact hl1
    | cons a as ih =>
      obtain ⟨m2, h1, h2⟩ := lexec_cons hx
      simp only [List.cons_append, lexec, h1]
      exact ih m2 h2
  obtain ⟨cs, hc, hcm⟩ := hreach.calls
  have hcw : ∀ a ∈ cs, NotWriteAt a := by
    intro a ha
    rcases hcm a ha with h | ⟨k, rfl⟩
    · apply hw a
      simp only [List.mem_append, List.mem_cons, reduceCtorEq, false_or] at h ⊢
      exact h
    · trivial
  obtain ⟨hf, ho, s0, hn, hx⟩ := hc
  have h0 : AInv o.toNat s0 := by
    unfold newMMAP at hn
    split at hn
    · cases hn
    · split at hn
      · cases hn
      · simp only [Option.some.injEq] at hn
        subst hn
        exact ⟨by simp, trivial, by simp⟩
  have ha := ainv_exec hf (inv_init hf hn ho) h0 hcw hx
  have hvl := inv_exec hf (inv_init hf hn ho) hx
  obtain ⟨ds, hd, _⟩ := proj hf hl1 h.inv
  -- the entry is still there
  have hent : ∀ (as : List Act) (s s' : St) (e : Entry), exec page s as = some s' → s.log[i]? = some e →
      ∃ e' : Entry, s'.log[i]? = some e' ∧ e'.start = e.start ∧ e'.data = e.data := by
    intro as
    induction as with
    | nil => intro s s' e h hi; simp only [exec, Option.some.injEq] at h; subst h; exact ⟨e, hi, rfl, rfl⟩
    | cons a as ih =>
      intro s s' e h hi
      simp only [exec] at h
      cases hx : act page s a with
      | none => simp [hx] at h
      | some t =>
        simp only [hx] at h
        have hlt := (List.getElem?_eq_some_iff.mp hi).1
        have : ∃ e' : Entry, t.log[i]? = some e' ∧ e'.start = e.start ∧ e'.data = e.data := by
          cases eff_of_act hx with
          | skip _ _ _ _ hl => exact ⟨e, by rw [hl]; exact hi, rfl, rfl⟩
          | push _ _ g _ _ _ _ hl => exact ⟨e, by rw [hl, List.getElem?_append_left hlt]; exact hi, rfl, rfl⟩
          | copy j g b hj _ _ _ hl =>
            by_cases hji : j = i
            · subst hji; rw [hi] at hj; cases hj
              exact ⟨{ e with pos := e.pos + 1 }, by rw [hl]; exact List.getElem?_set_self hlt, rfl, rfl⟩
            · exact ⟨e, by rw [hl, List.getElem?_set_ne hji]; exact hi, rfl, rfl⟩
          | finish j g hj _ _ _ hl =>
            by_cases hji : j = i
            · subst hji; rw [hi] at hj; cases hj
              exact ⟨{ e with returned := true }, by rw [hl]; exact List.getElem?_set_self hlt, rfl, rfl⟩
            · exact ⟨e, by rw [hl, List.getElem?_set_ne hji]; exact hi, rfl, rfl⟩
          | msync j g _ hj _ _ _ _ hl =>
            by_cases hji : j = i
            · subst hji; rw [hi] at hj; cases hj
              exact ⟨{ e with returned := true }, by rw [hl]; exact List.getElem?_set_self hlt, rfl, rfl⟩
            · exact ⟨e, by rw [hl, List.getElem?_set_ne hji]; exact hi, rfl, rfl⟩
          | writeback _ _ _ _ hl => exact ⟨e, by rw [hl]; exact hi, rfl, rfl⟩
        obtain ⟨e1, h1, h2, h3⟩ := this
        obtain ⟨e2, h4, h5, h6⟩ := ih t s' e1 h h1
        exact ⟨e2, h4, by rw [h5, h2], by rw [h6, h3]⟩
  obtain ⟨e', he', hst, hda⟩ := hent ds m.s l.s e hd hi
  have hal := Mmap.alone_of_append hvl ha.all he'
  have hal' : Alone l.s.log i e := by
    intro j f hj hf
    have := hal j f hj hf
    rw [hst, hda] at this; exact this
  exact C143_close page file o as bs m m' l i e h hm hi hr hfl hl hal'

/-- C143, why `Flush` is needed: `Unmap` and `UnmapAndCloseFile` alone may leave nothing on the disk. -/
theorem C143_unmap_not_durable : ∃ l, LReached 2 [0, 0] 0 [.base (.append false [7]), .slice 0, .base (.copy 0), .base (.finish 0), .unmap] l ∧
    (∀ e ∈ l.s.log, e.returned = true) ∧ l.s.mem = [7, 0] ∧ l.s.disk = [0, 0] :=
  ⟨⟨⟨1, [7, 0], [0, 0], [⟨0, [7], true, false, 1, true⟩]⟩, [.sliced], false, false⟩,
    ⟨by simp [maxLen], by decide, ⟨0, [0, 0], [0, 0], []⟩, by decide +kernel, by decide +kernel⟩, by simp, rfl, rfl⟩

example : ∃ l, LReached 2 [0, 0] 0 [.base (.append false [7]), .slice 0, .base (.copy 0), .base (.finish 0), .flush, .unmap] l ∧
    l.s.disk = [7, 0] :=
  ⟨⟨⟨1, [7, 0], [7, 0], [⟨0, [7], true, false, 1, true⟩]⟩, [.sliced], false, false⟩,
    ⟨by simp [maxLen], by decide, ⟨0, [0, 0], [0, 0], []⟩, by decide +kernel, by decide +kernel⟩, rfl⟩

/-! ## C144 -/

/-- C144, full statement: on Solaris too the data of a Sync call alone in its region is on the disk when the call returns. -/
def C144_claim : Prop := ∀ (page : Nat) (file : List UInt8) (o : BitVec 64) (as : List Act) (s s' : St) (i : Nat) (e : Entry),
  Mmap.Reached page file o as s → msyncSolaris s i = some s' → s'.log[i]? = some e → Alone s'.log i e → Holds s'.disk e.start e.data

theorem C144_claim_false : ¬ C144_claim := by
  intro h
  have hr : Mmap.Reached 2 [0, 0] 0 [.append true [7], .copy 0] ⟨1, [7, 0], [0, 0], [⟨0, [7], true, true, 1, false⟩]⟩ :=
    ⟨by simp [maxLen], by decide, ⟨0, [0, 0], [0, 0], []⟩, by decide +kernel, by decide +kernel⟩
  have := h _ _ _ _ _ ⟨1, [7, 0], [0, 0], [⟨0, [7], true, true, 1, true⟩]⟩ 0 ⟨0, [7], true, true, 1, true⟩ hr (by decide +kernel) rfl
    (by intro j f hj hf; cases j with
        | zero => exact absurd rfl hj
        | succ j => simp at hf)
  revert this
  simp [Holds]

/-- On Solaris a Sync call returns without anything having been written to the disk on its behalf; only `Flush` and `Close` (C143) write.
On the other systems the statement is C85. -/
theorem C144_solaris_partial (s s' : St) (i : Nat) (h : msyncSolaris s i = some s') : s'.disk = s.disk ∧ s'.mem = s.mem := by
  unfold msyncSolaris at h
  split at h
  · cases h
  · split at h
    · simp only [Option.some.injEq] at h; subst h; exact ⟨rfl, rfl⟩
    · cases h

example : msyncSolaris ⟨1, [7, 0], [0, 0], [⟨0, [7], true, true, 1, false⟩]⟩ 0 =
    some ⟨1, [7, 0], [0, 0], [⟨0, [7], true, true, 1, true⟩]⟩ := by decide +kernel

end Gofer.Props.MmapLife
