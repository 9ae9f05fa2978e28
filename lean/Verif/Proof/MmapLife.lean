import Verif.Model.MmapLife
import Verif.Proof.Mmap
/-!
# Lemmas about the life of a mapping
-/
namespace Gofer.Mmap
open Gofer.Spec.Mmap

/-- A locked section. -/
def resv : Act → Bool
  | .append _ _ => true
  | .writeAt _ _ _ => true
  | _ => false

/-- What the steps of `Model/Mmap.lean` do to the entries and the memory. -/
inductive Eff (s s' : St) : Act → Prop where
  | skip (a : Act) (ha : resv a = true) (hm : s'.mem = s.mem) (hd : s'.disk = s.disk) (hl : s'.log = s.log) : Eff s s' a
  | push (a : Act) (ha : resv a = true) (e : Entry) (hp : e.pos = 0) (hr : e.returned = false) (hm : s'.mem = s.mem) (hd : s'.disk = s.disk)
      (hl : s'.log = s.log ++ [e]) : Eff s s' a
  | copy (i : Nat) (e : Entry) (b : UInt8) (hi : s.log[i]? = some e) (hb : e.data[e.pos]? = some b)
      (hm : s'.mem = s.mem.set (e.start + e.pos) b) (hd : s'.disk = s.disk)
      (hl : s'.log = s.log.set i { e with pos := e.pos + 1 }) : Eff s s' (.copy i)
  | finish (i : Nat) (e : Entry) (hi : s.log[i]? = some e) (hp : e.pos = e.data.length) (hm : s'.mem = s.mem) (hd : s'.disk = s.disk)
      (hl : s'.log = s.log.set i { e with returned := true }) : Eff s s' (.finish i)
  | msync (i : Nat) (e : Entry) (r : Nat × Nat) (hi : s.log[i]? = some e) (hp : e.pos = e.data.length) (hm : s'.mem = s.mem)
      (hd : s'.disk = over s.disk r.1 ((s.mem.drop r.1).take r.2)) (hr : r.1 < s.mem.length)
      (hl : s'.log = s.log.set i { e with returned := true }) : Eff s s' (.msync i)
  | writeback (a : Nat) (ha : a < s.mem.length) (hm : s'.mem = s.mem) (hd : s'.disk = s.disk.set a (s.mem.getD a 0))
      (hl : s'.log = s.log) : Eff s s' (.writeback a)

theorem eff_begin {s : St} {ap sy : Bool} {bs : List UInt8} {r : Start × BitVec 64} {a : Act} (ha : resv a = true) : Eff s (begin s ap sy bs r) a := by
  obtain ⟨st, off⟩ := r
  cases st with
  | error => exact .skip _ ha rfl rfl rfl
  | panic => exact .skip _ ha rfl rfl rfl
  | reserved n => exact .push _ ha _ rfl rfl rfl rfl rfl

theorem eff_of_act {page : Nat} {s s' : St} {a : Act} (h : act page s a = some s') : Eff s s' a := by
  cases a with
  | append sy bs =>
    simp only [act] at h
    split at h
    · simp only [Option.some.injEq] at h; subst h; exact eff_begin rfl
    · cases h
  | writeAt sy bs o =>
    simp only [act] at h
    split at h
    · simp only [Option.some.injEq] at h; subst h; exact eff_begin rfl
    · cases h
  | copy i =>
    simp only [act] at h
    cases hx : s.log[i]? with
    | none => simp [hx] at h
    | some e =>
      simp only [hx] at h
      cases hb : e.data[e.pos]? with
      | none => simp [hb] at h
      | some b =>
        simp only [hb, Option.some.injEq] at h
        subst h
        exact .copy i e b hx hb rfl rfl rfl
  | finish i =>
    simp only [act] at h
    cases hx : s.log[i]? with
    | none => simp [hx] at h
    | some e =>
      simp only [hx] at h
      split at h
      · rename_i hc
        simp only [Option.some.injEq] at h
        subst h
        exact .finish i e hx hc.1 rfl rfl rfl
      · cases h
  | msync i =>
    simp only [act] at h
    cases hx : s.log[i]? with
    | none => simp [hx] at h
    | some e =>
      simp only [hx] at h
      split at h
      · rename_i hc
        split at h
        · rename_i r hr
          simp only [Option.some.injEq] at h
          subst h
          refine .msync i e r hx hc.1 rfl rfl ?_ rfl
          simp only [syncUnix] at hr
          split at hr
          · simp only [Option.some.injEq] at hr; subst hr; assumption
          · cases hr
        · cases h
      · cases h
  | writeback a =>
    simp only [act] at h
    split at h
    · rename_i ha
      simp only [Option.some.injEq] at h
      subst h
      exact .writeback a ha rfl rfl rfl
    · cases h

/-- The steps of the life of a mapping. -/
inductive LTr (page : Nat) (l l' : Life) : LAct → Prop where
  | reserve (a : Act) (hs : act page l.s a = some l'.s) (ha : (∃ sy bs, a = .append sy bs) ∨ ∃ sy bs o, a = .writeAt sy bs o)
      (hp : l'.ph = grow l.ph l'.s) (hm : l'.mapped = l.mapped) (hc : l'.crashed = false) : LTr page l l' (.base a)
  | slice (i : Nat) (e : Entry) (hi : l.ph[i]? = some .reserved) (he : l.s.log[i]? = some e)
      (hok : l.mapped = true ∨ (e.start = 0 ∧ e.data = [])) (hs : l'.s = l.s) (hp : l'.ph = l.ph.set i .sliced)
      (hm : l'.mapped = l.mapped) (hc : l'.crashed = false) : LTr page l l' (.slice i)
  | sliceNil (i : Nat) (e : Entry) (hi : l.ph[i]? = some .reserved) (he : l.s.log[i]? = some e)
      (hok : l.mapped = false) (hs : l'.s = l.s) (hp : l'.ph = l.ph.set i .panicked)
      (hm : l'.mapped = l.mapped) (hc : l'.crashed = false) : LTr page l l' (.slice i)
  | copy (i : Nat) (hi : l.ph[i]? = some .sliced) (hmap : l.mapped = true) (hs : act page l.s (.copy i) = some l'.s)
      (hp : l'.ph = l.ph) (hm : l'.mapped = l.mapped) (hc : l'.crashed = false) : LTr page l l' (.base (.copy i))
  | fault (i : Nat) (s' : St) (hi : l.ph[i]? = some .sliced) (hmap : l.mapped = false) (hs' : act page l.s (.copy i) = some s')
      (hs : l'.s = l.s) (hp : l'.ph = l.ph) (hm : l'.mapped = l.mapped) (hc : l'.crashed = true) : LTr page l l' (.base (.copy i))
  | finish (i : Nat) (hi : l.ph[i]? = some .sliced) (hs : act page l.s (.finish i) = some l'.s)
      (hp : l'.ph = l.ph) (hm : l'.mapped = l.mapped) (hc : l'.crashed = false) : LTr page l l' (.base (.finish i))
  | msync (i : Nat) (hi : l.ph[i]? = some .sliced) (hmap : l.mapped = true) (hs : act page l.s (.msync i) = some l'.s)
      (hp : l'.ph = l.ph) (hm : l'.mapped = l.mapped) (hc : l'.crashed = false) : LTr page l l' (.base (.msync i))
  | msyncNil (i : Nat) (hi : l.ph[i]? = some .sliced) (ho : over? l.s i = false) (hmap : l.mapped = false)
      (hs : l'.s = l.s) (hp : l'.ph = l.ph.set i .panicked) (hm : l'.mapped = l.mapped) (hc : l'.crashed = false) : LTr page l l' (.base (.msync i))
  | writeback (a : Nat) (hs : act page l.s (.writeback a) = some l'.s)
      (hp : l'.ph = l.ph) (hm : l'.mapped = l.mapped) (hc : l'.crashed = false) : LTr page l l' (.base (.writeback a))
  | flush (hmap : l.mapped = true) (hs : l'.s = { l.s with disk := l.s.mem })
      (hp : l'.ph = l.ph) (hm : l'.mapped = l.mapped) (hc : l'.crashed = false) : LTr page l l' .flush
  | flushNil (hmap : l.mapped = false) (hs : l' = l) (hc : l'.crashed = false) : LTr page l l' .flush
  | unmap (hs : l'.s = l.s) (hp : l'.ph = l.ph) (hm : l'.mapped = false) (hc : l'.crashed = false) : LTr page l l' .unmap

theorem ltr_of_lact {page : Nat} {l l' : Life} {a : LAct} (h : lact page l a = some l') : LTr page l l' a := by
  unfold lact at h
  split at h
  · cases h
  rename_i hc
  have hc : l.crashed = false := by simpa using hc
  split at h
  · rename_i sy bs
    rw [Option.map_eq_some_iff] at h
    obtain ⟨s', hs, rfl⟩ := h
    exact .reserve _ hs (Or.inl ⟨_, _, rfl⟩) rfl rfl hc
  · rw [Option.map_eq_some_iff] at h
    obtain ⟨s', hs, rfl⟩ := h
    exact .reserve _ hs (Or.inr ⟨_, _, _, rfl⟩) rfl rfl hc
  · rename_i i
    split at h
    · rename_i e hi he
      split at h
      · rename_i hok
        simp only [Option.some.injEq] at h; subst h
        refine .slice i e hi he ?_ rfl rfl rfl hc
        simpa using hok
      · rename_i hok
        simp only [Option.some.injEq] at h; subst h
        refine .sliceNil i e hi he ?_ rfl rfl rfl hc
        revert hok; cases l.mapped <;> simp
    · cases h
  · split at h
    · rename_i hi
      split at h
      · cases h
      · rename_i s' hs
        split at h
        · simp only [Option.some.injEq] at h; subst h
          exact .copy _ hi (by assumption) hs rfl rfl hc
        · simp only [Option.some.injEq] at h; subst h
          exact .fault _ s' hi (by simpa using ‹¬ l.mapped = true›) hs rfl rfl rfl rfl
    · cases h
  · split at h
    · rename_i hi
      split at h
      · cases h
      · rw [Option.map_eq_some_iff] at h
        obtain ⟨s', hs, rfl⟩ := h
        exact .finish _ hi hs rfl rfl hc
    · cases h
  · split at h
    · rename_i hi
      split at h
      · cases h
      · rename_i ho
        split at h
        · cases h
        · rename_i s' hs
          split at h
          · simp only [Option.some.injEq] at h; subst h
            exact .msync _ hi (by assumption) hs rfl rfl hc
          · simp only [Option.some.injEq] at h; subst h
            exact .msyncNil _ hi (by simpa using ho) (by simpa using ‹¬ l.mapped = true›) rfl rfl rfl hc
    · cases h
  · rw [Option.map_eq_some_iff] at h
    obtain ⟨s', hs, rfl⟩ := h
    exact .writeback _ hs rfl rfl hc
  · split at h
    · simp only [Option.some.injEq] at h; subst h
      exact .flush (by assumption) rfl rfl rfl hc
    · simp only [Option.some.injEq] at h; subst h
      exact .flushNil (by simpa using ‹¬ l.mapped = true›) rfl hc
  · simp only [Option.some.injEq] at h; subst h
    exact .unmap rfl rfl rfl hc

theorem lexec_append {page : Nat} {l l' : Life} {as bs : List LAct} (h : lexec page l (as ++ bs) = some l') :
    ∃ m, lexec page l as = some m ∧ lexec page m bs = some l' := by
  induction as generalizing l with
  | nil => exact ⟨l, rfl, h⟩
  | cons a as ih =>
    simp only [List.cons_append, lexec] at h
    cases hx : lact page l a with
    | none => simp [hx] at h
    | some l1 =>
      simp only [hx] at h
      obtain ⟨m, h1, h2⟩ := ih h
      exact ⟨m, by simp [lexec, hx, h1], h2⟩

theorem lexec_cons {page : Nat} {l l' : Life} {a : LAct} {as : List LAct} (h : lexec page l (a :: as) = some l') :
    ∃ m, lact page l a = some m ∧ lexec page m as = some l' := by
  simp only [lexec] at h
  cases hx : lact page l a with
  | none => simp [hx] at h
  | some l1 => simp only [hx] at h; exact ⟨l1, rfl, h⟩

/-- Induction over an execution with an invariant. -/
theorem lexec_inv {page : Nat} {I : Life → Prop} (hstep : ∀ l l' a, I l → LTr page l l' a → I l') {l l' : Life} {as : List LAct}
    (h : lexec page l as = some l') (hi : I l) : I l' := by
  induction as generalizing l with
  | nil => simp only [lexec, Option.some.injEq] at h; subst h; exact hi
  | cons a as ih =>
    obtain ⟨m, h1, h2⟩ := lexec_cons h
    exact ih h2 (hstep _ _ _ hi (ltr_of_lact h1))

/-! ### Executions of `Model/Mmap.lean` inside -/

theorem exec_append {page : Nat} {s s1 s2 : St} {as bs : List Act} (h : exec page s as = some s1) (h' : exec page s1 bs = some s2) :
    exec page s (as ++ bs) = some s2 := by
  induction as generalizing s with
  | nil => simp only [exec, Option.some.injEq] at h; subst h; exact h'
  | cons a as ih =>
    simp only [exec] at h
    cases hx : act page s a with
    | none => simp [hx] at h
    | some t => simp only [hx] at h; simp [exec, hx, ih h]

/-- Writing back every byte. -/
theorem exec_writeback (page : Nat) (s : St) (hd : s.disk.length = s.mem.length) (n : Nat) (hn : n ≤ s.mem.length) :
    exec page s ((List.range n).map .writeback) = some { s with disk := s.mem.take n ++ s.disk.drop n } := by
  induction n with
  | zero => simp [exec]
  | succ n ih =>
    rw [List.range_succ, List.map_append]
    refine exec_append (ih (by omega)) ?_
    simp only [List.map_cons, List.map_nil, exec, act, show n < s.mem.length by omega, if_true, Option.some.injEq, St.mk.injEq, true_and,
      and_true]
    apply List.ext_getElem?
    intro k
    have hl : (s.mem.take n).length = n := by simp; omega
    have hl' : (s.mem.take (n + 1)).length = n + 1 := by simp; omega
    have hg : s.mem.getD n 0 = s.mem[n]'(by omega) := by simp [List.getD_eq_getElem?_getD, show n < s.mem.length by omega]
    rw [List.getElem?_set]
    by_cases hk : n = k
    · subst hk
      rw [if_pos rfl, if_pos (by simp; omega), List.getElem?_append_left (by omega), List.getElem?_take_of_lt (by omega), hg]
      simp
    · rw [if_neg hk]
      by_cases h1 : k < n
      · rw [List.getElem?_append_left (by omega), List.getElem?_append_left (by omega), List.getElem?_take_of_lt h1,
          List.getElem?_take_of_lt (by omega)]
      · rw [List.getElem?_append_right (by omega), List.getElem?_append_right (by omega), List.getElem?_drop, List.getElem?_drop]
        congr 1; omega

theorem exec_flush (page : Nat) (s : St) (hd : s.disk.length = s.mem.length) :
    exec page s ((List.range s.mem.length).map .writeback) = some { s with disk := s.mem } := by
  rw [exec_writeback page s hd _ (Nat.le_refl _)]
  rw [List.take_length, ← hd, List.drop_length, List.append_nil]

theorem exec_one {page : Nat} {s s' : St} {a : Act} (h : act page s a = some s') : exec page s [a] = some s' := by
  simp [exec, h]

/-- A step of the life is a sequence of steps of the calls. -/
theorem proj_step {page : Nat} {l l' : Life} {a : LAct} (h : LTr page l l' a) (hd : l.s.disk.length = l.s.mem.length) :
    ∃ bs, exec page l.s bs = some l'.s ∧ ∀ b ∈ bs, a = .base b ∨ ∃ k, b = .writeback k := by
  cases h with
  | reserve a hs => exact ⟨[a], exec_one hs, by simp⟩
  | slice i e hi he hok hs => exact ⟨[], by rw [hs]; rfl, by simp⟩
  | sliceNil i e hi he hok hs => exact ⟨[], by rw [hs]; rfl, by simp⟩
  | copy i hi hmap hs => exact ⟨[_], exec_one hs, by simp⟩
  | fault i s' hi hmap hs' hs => exact ⟨[], by rw [hs]; rfl, by simp⟩
  | finish i hi hs => exact ⟨[_], exec_one hs, by simp⟩
  | msync i hi hmap hs => exact ⟨[_], exec_one hs, by simp⟩
  | msyncNil i hi ho hmap hs => exact ⟨[], by rw [hs]; rfl, by simp⟩
  | writeback a hs => exact ⟨[_], exec_one hs, by simp⟩
  | flush hmap hs =>
    refine ⟨_, by rw [hs]; exact exec_flush page l.s hd, ?_⟩
    intro b hb
    rw [List.mem_map] at hb
    obtain ⟨k, _, rfl⟩ := hb
    exact Or.inr ⟨k, rfl⟩
  | flushNil hmap hs => exact ⟨[], by rw [hs]; rfl, by simp⟩
  | unmap hs => exact ⟨[], by rw [hs]; rfl, by simp⟩

/-- An execution of the life contains one of the calls. -/
theorem proj {page : Nat} {file : List UInt8} (hf : file.length < maxLen) {l l' : Life} {as : List LAct}
    (h : lexec page l as = some l') (hi : Inv file l.s) :
    ∃ bs, exec page l.s bs = some l'.s ∧ ∀ b ∈ bs, .base b ∈ as ∨ ∃ k, b = .writeback k := by
  induction as generalizing l with
  | nil => simp only [lexec, Option.some.injEq] at h; subst h; exact ⟨[], rfl, by simp⟩
  | cons a as ih =>
    obtain ⟨m, h1, h2⟩ := lexec_cons h
    obtain ⟨bs, hb, hbm⟩ := proj_step (ltr_of_lact h1) (by rw [hi.dlen, hi.len])
    obtain ⟨cs, hc, hcm⟩ := ih h2 (inv_exec hf hi hb)
    refine ⟨bs ++ cs, exec_append hb hc, ?_⟩
    intro b hb'
    rcases List.mem_append.mp hb' with h | h
    · rcases hbm b h with h | h
      · exact Or.inl (by simp [h])
      · exact Or.inr h
    · rcases hcm b h with h | h
      · exact Or.inl (by simp [h])
      · exact Or.inr h

theorem linv {page : Nat} {file : List UInt8} (hf : file.length < maxLen) {l l' : Life} {as : List LAct}
    (h : lexec page l as = some l') (hi : Inv file l.s) : Inv file l'.s := by
  obtain ⟨bs, hb, _⟩ := proj hf h hi
  exact inv_exec hf hi hb

/-! ### Phases -/

/-- Phases and entries go together, and only a call that was sliced has returned or copied anything. -/
structure WF (l : Life) : Prop where
  len : l.ph.length = l.s.log.length
  idle : ∀ (i : Nat) (e : Entry), l.s.log[i]? = some e → l.ph[i]? ≠ some .sliced → e.returned = false
  start : ∀ (i : Nat) (e : Entry), l.s.log[i]? = some e → l.ph[i]? = some .reserved → e.pos = 0

theorem grow_same {ph : List Phase} {s' : St} (h : s'.log.length = ph.length) : grow ph s' = ph := by
  simp [grow, h]

theorem grow_one {ph : List Phase} {s' : St} (h : s'.log.length = ph.length + 1) : grow ph s' = ph ++ [.reserved] := by
  simp [grow, h]

theorem getElem?_append_one {α : Type} {l : List α} {x y : α} {i : Nat} (h : (l ++ [x])[i]? = some y) :
    l[i]? = some y ∨ (i = l.length ∧ y = x) := by
  by_cases hi : i < l.length
  · rw [List.getElem?_append_left hi] at h; exact Or.inl h
  · rw [List.getElem?_append_right (by omega)] at h
    have h0 : i - l.length = 0 := by
      have := (List.getElem?_eq_some_iff.mp h).1
      simp at this; omega
    rw [h0] at h
    simp at h
    exact Or.inr ⟨by omega, h.symm⟩

theorem getElem?_set_cases {α : Type} {l : List α} {x y : α} {i j : Nat} (h : (l.set i x)[j]? = some y) :
    (i = j ∧ y = x ∧ i < l.length) ∨ (i ≠ j ∧ l[j]? = some y) := by
  by_cases hij : i = j
  · subst hij
    have hlt := (List.getElem?_eq_some_iff.mp h).1
    simp only [List.length_set] at hlt
    rw [List.getElem?_set_self hlt] at h
    exact Or.inl ⟨rfl, (by simpa using h.symm), hlt⟩
  · rw [List.getElem?_set_ne hij] at h
    exact Or.inr ⟨hij, h⟩

theorem wf_step {page : Nat} {l l' : Life} {a : LAct} (hw : WF l) (h : LTr page l l' a) : WF l' := by
  cases h with
  | reserve a hs ha hp hm hc =>
    have he := eff_of_act hs
    have hcase : l'.s.log = l.s.log ∨ ∃ e : Entry, e.pos = 0 ∧ e.returned = false ∧ l'.s.log = l.s.log ++ [e] := by
      cases he with
      | skip _ _ _ _ hl => exact Or.inl hl
      | push _ _ e hp hr _ _ hl => exact Or.inr ⟨e, hp, hr, hl⟩
      | _ => rcases ha with ⟨_, _, h⟩ | ⟨_, _, _, h⟩ <;> cases h
    rcases hcase with hl | ⟨e, hpos, hret, hl⟩
    · rw [grow_same (by rw [hl, hw.len])] at hp
      exact ⟨by rw [hp, hl, hw.len], fun i e h1 h2 => hw.idle i e (by rw [← hl]; exact h1) (by rw [← hp]; exact h2),
        fun i e h1 h2 => hw.start i e (by rw [← hl]; exact h1) (by rw [← hp]; exact h2)⟩
    · rw [grow_one (by rw [hl, hw.len]; simp)] at hp
      refine ⟨by rw [hp, hl]; simp [hw.len], ?_, ?_⟩
      · intro i f h1 h2
        rw [hl] at h1
        rcases getElem?_append_one h1 with h1 | ⟨rfl, rfl⟩
        · refine hw.idle i f h1 ?_
          intro hx; apply h2
          have hlt : i < l.ph.length := (List.getElem?_eq_some_iff.mp hx).1
          rw [hp, List.getElem?_append_left hlt]; exact hx
        · exact hret
      · intro i f h1 h2
        rw [hl] at h1
        rcases getElem?_append_one h1 with h1 | ⟨rfl, rfl⟩
        · refine hw.start i f h1 ?_
          have hlt : i < l.ph.length := by rw [hw.len]; exact (List.getElem?_eq_some_iff.mp h1).1
          rw [hp, List.getElem?_append_left hlt] at h2; exact h2
        · exact hpos
  | slice i e hi he hok hs hp hm hc =>
    refine ⟨by rw [hp, hs]; simp [hw.len], ?_, ?_⟩
    · intro j f h1 h2
      rw [hs] at h1
      by_cases hij : i = j
      · subst hij
        refine hw.idle i f h1 (by rw [hi]; simp)
      · rw [hp, List.getElem?_set_ne hij] at h2
        exact hw.idle j f h1 h2
    · intro j f h1 h2
      rw [hs] at h1
      rw [hp] at h2
      rcases getElem?_set_cases h2 with ⟨_, h, _⟩ | ⟨_, h⟩
      · cases h
      · exact hw.start j f h1 h
  | sliceNil i e hi he hok hs hp hm hc =>
    refine ⟨by rw [hp, hs]; simp [hw.len], ?_, ?_⟩
    · intro j f h1 h2
      rw [hs] at h1
      by_cases hij : i = j
      · subst hij
        refine hw.idle i f h1 (by rw [hi]; simp)
      · rw [hp, List.getElem?_set_ne hij] at h2
        exact hw.idle j f h1 h2
    · intro j f h1 h2
      rw [hs] at h1
      rw [hp] at h2
      rcases getElem?_set_cases h2 with ⟨_, h, _⟩ | ⟨_, h⟩
      · cases h
      · exact hw.start j f h1 h
  | copy i hi hmap hs hp hm hc =>
    cases eff_of_act hs with
    | skip _ ha => cases ha
    | push _ ha => cases ha
    | copy _ e b hx hb _ _ hl =>
      refine ⟨by rw [hp, hl]; simp [hw.len], ?_, ?_⟩
      · intro j f h1 h2
        rw [hl] at h1; rw [hp] at h2
        rcases getElem?_set_cases h1 with ⟨rfl, rfl, _⟩ | ⟨_, h⟩
        · exact absurd hi h2
        · exact hw.idle j f h h2
      · intro j f h1 h2
        rw [hl] at h1; rw [hp] at h2
        rcases getElem?_set_cases h1 with ⟨rfl, rfl, _⟩ | ⟨_, h⟩
        · rw [hi] at h2; cases h2
        · exact hw.start j f h h2
  | fault i s' hi hmap hs' hs hp hm hc =>
    exact ⟨by rw [hp, hs, hw.len], fun i e h1 h2 => hw.idle i e (by rw [← hs]; exact h1) (by rw [← hp]; exact h2),
        fun i e h1 h2 => hw.start i e (by rw [← hs]; exact h1) (by rw [← hp]; exact h2)⟩
  | finish i hi hs hp hm hc =>
    have hx : ∃ e : Entry, l.s.log[i]? = some e ∧ l'.s.log = l.s.log.set i { e with returned := true } := by
      cases eff_of_act hs with
      | skip _ ha => cases ha
      | push _ ha => cases ha
      | finish _ e hx _ _ _ hl => exact ⟨e, hx, hl⟩
    obtain ⟨e, hx, hl⟩ := hx
    refine ⟨by rw [hp, hl]; simp [hw.len], ?_, ?_⟩
    · intro j f h1 h2
      rw [hl] at h1; rw [hp] at h2
      rcases getElem?_set_cases h1 with ⟨rfl, rfl, _⟩ | ⟨_, h⟩
      · exact absurd hi h2
      · exact hw.idle j f h h2
    · intro j f h1 h2
      rw [hl] at h1; rw [hp] at h2
      rcases getElem?_set_cases h1 with ⟨rfl, rfl, _⟩ | ⟨_, h⟩
      · rw [hi] at h2; cases h2
      · exact hw.start j f h h2
  | msync i hi hmap hs hp hm hc =>
    have hx : ∃ e : Entry, l.s.log[i]? = some e ∧ l'.s.log = l.s.log.set i { e with returned := true } := by
      cases eff_of_act hs with
      | skip _ ha => cases ha
      | push _ ha => cases ha
      | msync _ e _ hx _ _ _ _ hl => exact ⟨e, hx, hl⟩
    obtain ⟨e, hx, hl⟩ := hx
    refine ⟨by rw [hp, hl]; simp [hw.len], ?_, ?_⟩
    · intro j f h1 h2
      rw [hl] at h1; rw [hp] at h2
      rcases getElem?_set_cases h1 with ⟨rfl, rfl, _⟩ | ⟨_, h⟩
      · exact absurd hi h2
      · exact hw.idle j f h h2
    · intro j f h1 h2
      rw [hl] at h1; rw [hp] at h2
      rcases getElem?_set_cases h1 with ⟨rfl, rfl, _⟩ | ⟨_, h⟩
      · rw [hi] at h2; cases h2
      · exact hw.start j f h h2
  | msyncNil i hi ho hmap hs hp hm hc =>
    refine ⟨by rw [hp, hs]; simp [hw.len], ?_, ?_⟩
    · intro j f h1 h2
      rw [hs] at h1
      by_cases hij : i = j
      · subst hij
        simpa [over?, h1] using ho
      · rw [hp, List.getElem?_set_ne hij] at h2
        exact hw.idle j f h1 h2
    · intro j f h1 h2
      rw [hs] at h1
      rw [hp] at h2
      rcases getElem?_set_cases h2 with ⟨_, h, _⟩ | ⟨_, h⟩
      · cases h
      · exact hw.start j f h1 h
  | writeback a hs hp hm hc =>
    have hl : l'.s.log = l.s.log := by
      simp only [act] at hs
      split at hs
      · simp only [Option.some.injEq] at hs; rw [← hs]
      · cases hs
    exact ⟨by rw [hp, hl, hw.len], fun i e h1 h2 => hw.idle i e (by rw [← hl]; exact h1) (by rw [← hp]; exact h2),
        fun i e h1 h2 => hw.start i e (by rw [← hl]; exact h1) (by rw [← hp]; exact h2)⟩
  | flush hmap hs hp hm hc =>
    have hl : l'.s.log = l.s.log := by rw [hs]
    exact ⟨by rw [hp, hl, hw.len], fun i e h1 h2 => hw.idle i e (by rw [← hl]; exact h1) (by rw [← hp]; exact h2),
        fun i e h1 h2 => hw.start i e (by rw [← hl]; exact h1) (by rw [← hp]; exact h2)⟩
  | flushNil hmap hs => rw [hs]; exact hw
  | unmap hs hp hm hc =>
    exact ⟨by rw [hp, hs, hw.len], fun i e h1 h2 => hw.idle i e (by rw [← hs]; exact h1) (by rw [← hp]; exact h2),
        fun i e h1 h2 => hw.start i e (by rw [← hs]; exact h1) (by rw [← hp]; exact h2)⟩

theorem wf_live {s : St} (h : s.log = []) : WF (live s) :=
  ⟨by simp [live, h], by simp [live, h], by simp [live, h]⟩

/-! ### After `Unmap` -/

/-- Every call past its slice expression has copied all its bytes. -/
def Quiet (l : Life) : Prop := ∀ (i : Nat) (e : Entry), l.s.log[i]? = some e → l.ph[i]? = some .sliced → e.pos = e.data.length

/-- Unmapped with no call copying. -/
structure Still (m : List UInt8) (l : Life) : Prop where
  wf : WF l
  unmapped : l.mapped = false
  alive : l.crashed = false
  mem : l.s.mem = m
  quiet : Quiet l

theorem still_step {page : Nat} {m : List UInt8} {l l' : Life} {a : LAct} (hq : Still m l) (h : LTr page l l' a) : Still m l' := by
  have hw := wf_step hq.wf h
  have hum := hq.unmapped
  cases h with
  | reserve a hs ha hp hm hc =>
    have hr : resv a = true := by rcases ha with ⟨_, _, h⟩ | ⟨_, _, _, h⟩ <;> subst h <;> rfl
    cases eff_of_act hs with
    | skip _ _ hmem _ hl =>
      rw [grow_same (by rw [hl, hq.wf.len])] at hp
      exact ⟨hw, by rw [hm, hum], hc, by rw [hmem, hq.mem], fun i e h1 h2 => hq.quiet i e (by rw [← hl]; exact h1) (by rw [← hp]; exact h2)⟩
    | push _ _ e hpos hret hmem _ hl =>
      rw [grow_one (by rw [hl, hq.wf.len]; simp)] at hp
      refine ⟨hw, by rw [hm, hum], hc, by rw [hmem, hq.mem], ?_⟩
      intro i f h1 h2
      rw [hp] at h2
      rcases getElem?_append_one h2 with h2 | ⟨_, h⟩
      · rw [hl] at h1
        have hlt : i < l.s.log.length := by rw [← hq.wf.len]; exact (List.getElem?_eq_some_iff.mp h2).1
        rw [List.getElem?_append_left hlt] at h1
        exact hq.quiet i f h1 h2
      · cases h
    | _ => cases hr
  | slice i e hi he hok hs hp hm hc =>
    refine ⟨hw, by rw [hm, hum], hc, by rw [hs, hq.mem], ?_⟩
    intro j f h1 h2
    rw [hs] at h1; rw [hp] at h2
    rcases getElem?_set_cases h2 with ⟨rfl, _, _⟩ | ⟨_, h⟩
    · rw [he] at h1; cases h1
      rcases hok with h | ⟨_, h⟩
      · rw [hum] at h; cases h
      · rw [h, hq.wf.start i e he hi]; rfl
    · exact hq.quiet j f h1 h
  | sliceNil i e hi he hok hs hp hm hc =>
    refine ⟨hw, by rw [hm, hum], hc, by rw [hs, hq.mem], ?_⟩
    intro j f h1 h2
    rw [hs] at h1; rw [hp] at h2
    rcases getElem?_set_cases h2 with ⟨_, h, _⟩ | ⟨_, h⟩
    · cases h
    · exact hq.quiet j f h1 h
  | copy i hi hmap => rw [hum] at hmap; cases hmap
  | fault i s' hi hmap hs' =>
    exfalso
    cases eff_of_act hs' with
    | skip _ ha => cases ha
    | push _ ha => cases ha
    | copy _ e b hx hb =>
      rw [hq.quiet i e hx hi, List.getElem?_eq_none (Nat.le_refl _)] at hb
      cases hb
  | finish i hi hs hp hm hc =>
    cases eff_of_act hs with
    | skip _ ha => cases ha
    | push _ ha => cases ha
    | finish _ e hx hpos hmem _ hl =>
      refine ⟨hw, by rw [hm, hum], hc, by rw [hmem, hq.mem], ?_⟩
      intro j f h1 h2
      rw [hl] at h1; rw [hp] at h2
      rcases getElem?_set_cases h1 with ⟨rfl, rfl, _⟩ | ⟨_, h⟩
      · exact hpos
      · exact hq.quiet j f h h2
  | msync i hi hmap => rw [hum] at hmap; cases hmap
  | msyncNil i hi ho hmap hs hp hm hc =>
    refine ⟨hw, by rw [hm, hum], hc, by rw [hs, hq.mem], ?_⟩
    intro j f h1 h2
    rw [hs] at h1; rw [hp] at h2
    rcases getElem?_set_cases h2 with ⟨_, h, _⟩ | ⟨_, h⟩
    · cases h
    · exact hq.quiet j f h1 h
  | writeback a hs hp hm hc =>
    cases eff_of_act hs with
    | skip _ ha => cases ha
    | push _ ha => cases ha
    | writeback _ _ hmem _ hl =>
      exact ⟨hw, by rw [hm, hum], hc, by rw [hmem, hq.mem], fun i e h1 h2 => hq.quiet i e (by rw [← hl]; exact h1) (by rw [← hp]; exact h2)⟩
  | flush hmap => rw [hum] at hmap; cases hmap
  | flushNil hmap hs => rw [hs]; exact hq
  | unmap hs hp hm hc =>
    exact ⟨hw, hm, hc, by rw [hs, hq.mem], fun i e h1 h2 => hq.quiet i e (by rw [← hs]; exact h1) (by rw [← hp]; exact h2)⟩

/-- Unmapped, and call `i` is not past its slice expression, unless it has nothing to write at the very beginning. -/
structure Late (i : Nat) (l : Life) : Prop where
  wf : WF l
  unmapped : l.mapped = false
  late : ∀ e : Entry, l.s.log[i]? = some e → ¬ (e.start = 0 ∧ e.data = []) → l.ph[i]? ≠ some .sliced

theorem late_step {page i : Nat} {l l' : Life} {a : LAct} (hq : Late i l) (h : LTr page l l' a) : Late i l' := by
  have hw := wf_step hq.wf h
  have hum := hq.unmapped
  cases h with
  | reserve a hs ha hp hm hc =>
    have hr : resv a = true := by rcases ha with ⟨_, _, h⟩ | ⟨_, _, _, h⟩ <;> subst h <;> rfl
    cases eff_of_act hs with
    | skip _ _ hmem _ hl =>
      rw [grow_same (by rw [hl, hq.wf.len])] at hp
      exact ⟨hw, by rw [hm, hum], fun e h1 h2 => by rw [hp]; exact hq.late e (by rw [← hl]; exact h1) h2⟩
    | push _ _ e hpos hret hmem _ hl =>
      rw [grow_one (by rw [hl, hq.wf.len]; simp)] at hp
      refine ⟨hw, by rw [hm, hum], ?_⟩
      intro f h1 h2 h3
      rw [hp] at h3
      rcases getElem?_append_one h3 with h3 | ⟨_, h⟩
      · rw [hl] at h1
        have hlt : i < l.s.log.length := by rw [← hq.wf.len]; exact (List.getElem?_eq_some_iff.mp h3).1
        rw [List.getElem?_append_left hlt] at h1
        exact hq.late f h1 h2 h3
      · cases h
    | _ => cases hr
  | slice j e hi he hok hs hp hm hc =>
    refine ⟨hw, by rw [hm, hum], ?_⟩
    intro f h1 h2 h3
    rw [hs] at h1; rw [hp] at h3
    rcases getElem?_set_cases h3 with ⟨rfl, _, _⟩ | ⟨_, h⟩
    · rw [he] at h1; cases h1
      rcases hok with h | h
      · rw [hum] at h; cases h
      · exact h2 h
    · exact hq.late f h1 h2 h
  | sliceNil j e hi he hok hs hp hm hc =>
    refine ⟨hw, by rw [hm, hum], ?_⟩
    intro f h1 h2 h3
    rw [hs] at h1; rw [hp] at h3
    rcases getElem?_set_cases h3 with ⟨_, h, _⟩ | ⟨_, h⟩
    · cases h
    · exact hq.late f h1 h2 h
  | copy i hi hmap => rw [hum] at hmap; cases hmap
  | fault j s' hi hmap hs' hs hp hm hc =>
    exact ⟨hw, by rw [hm, hum], fun e h1 h2 => by rw [hp]; exact hq.late e (by rw [← hs]; exact h1) h2⟩
  | finish j hi hs hp hm hc =>
    cases eff_of_act hs with
    | skip _ ha => cases ha
    | push _ ha => cases ha
    | finish _ e hx hpos hmem _ hl =>
      refine ⟨hw, by rw [hm, hum], ?_⟩
      intro f h1 h2
      rw [hl] at h1; rw [hp]
      rcases getElem?_set_cases h1 with ⟨rfl, rfl, _⟩ | ⟨_, h⟩
      · exact hq.late e hx h2
      · exact hq.late f h h2
  | msync i hi hmap => rw [hum] at hmap; cases hmap
  | msyncNil j hi ho hmap hs hp hm hc =>
    refine ⟨hw, by rw [hm, hum], ?_⟩
    intro f h1 h2 h3
    rw [hs] at h1; rw [hp] at h3
    rcases getElem?_set_cases h3 with ⟨_, h, _⟩ | ⟨_, h⟩
    · cases h
    · exact hq.late f h1 h2 h
  | writeback a hs hp hm hc =>
    cases eff_of_act hs with
    | skip _ ha => cases ha
    | push _ ha => cases ha
    | writeback _ _ hmem _ hl =>
      exact ⟨hw, by rw [hm, hum], fun e h1 h2 => by rw [hp]; exact hq.late e (by rw [← hl]; exact h1) h2⟩
  | flush hmap => rw [hum] at hmap; cases hmap
  | flushNil hmap hs => rw [hs]; exact hq
  | unmap hs hp hm hc =>
    exact ⟨hw, hm, fun e h1 h2 => by rw [hp]; exact hq.late e (by rw [← hs]; exact h1) h2⟩

/-! ### What is on the disk -/

theorem alone_back {page : Nat} {s s' : St} {as : List Act} (h : exec page s as = some s') {i : Nat} {f : Entry}
    (ha : Alone s'.log i f) : Alone s.log i f := by
  induction as generalizing s with
  | nil => simp only [exec, Option.some.injEq] at h; subst h; exact ha
  | cons a as ih =>
    simp only [exec] at h
    cases hx : act page s a with
    | none => simp [hx] at h
    | some t =>
      simp only [hx] at h
      have := ih h
      cases eff_of_act hx with
      | skip _ _ _ _ hl => rw [hl] at this; exact this
      | push _ _ e _ _ _ _ hl =>
        rw [hl] at this
        intro j g hj hg
        exact this j g hj (by rw [List.getElem?_append_left (List.getElem?_eq_some_iff.mp hg).1]; exact hg)
      | copy j e b hj hb hm hd hl => rw [hl] at this; exact alone_set (e' := { e with pos := e.pos + 1 }) hj rfl rfl this
      | finish j e hj _ _ _ hl => rw [hl] at this; exact alone_set (e' := { e with returned := true }) hj rfl rfl this
      | msync j e _ hj _ _ _ _ hl => rw [hl] at this; exact alone_set (e' := { e with returned := true }) hj rfl rfl this
      | writeback _ _ _ _ hl => rw [hl] at this; exact this

/-- Call `i` has copied `d` to `st`, and that is on the disk. -/
structure OnDisk (i st : Nat) (d : List UInt8) (s : St) : Prop where
  entry : ∃ e, s.log[i]? = some e ∧ e.start = st ∧ e.data = d ∧ e.pos = d.length
  mem : ∀ k, k < d.length → s.mem[st + k]? = d[k]?
  disk : ∀ k, k < d.length → s.disk[st + k]? = d[k]?

theorem onDisk_step {page : Nat} {file : List UInt8} {i st : Nat} {d : List UInt8} {s s' : St} {a : Act} (hi : Inv file s)
    (ho : OnDisk i st d s) {f : Entry} (hfs : f.start = st) (hfd : f.data = d) (hal : Alone s.log i f) (h : act page s a = some s') :
    OnDisk i st d s' := by
  obtain ⟨⟨e, he, hes, hed, hep⟩, hm, hd⟩ := ho
  cases eff_of_act h with
  | skip _ _ hm' hd' hl' => exact ⟨⟨e, by rw [hl']; exact he, hes, hed, hep⟩, by rw [hm']; exact hm, by rw [hd']; exact hd⟩
  | push _ _ g _ _ hm' hd' hl' =>
    exact ⟨⟨e, by rw [hl', List.getElem?_append_left (List.getElem?_eq_some_iff.mp he).1]; exact he, hes, hed, hep⟩,
      by rw [hm']; exact hm, by rw [hd']; exact hd⟩
  | copy j g b hj hb hm' hd' hl' =>
    have hne : j ≠ i := by
      rintro rfl
      rw [he] at hj; cases hj
      rw [hep, ← hed, List.getElem?_eq_none (Nat.le_refl _)] at hb; cases hb
    have hlt : g.pos < g.data.length := (List.getElem?_eq_some_iff.mp hb).1
    refine ⟨⟨e, by rw [hl', List.getElem?_set_ne hne]; exact he, hes, hed, hep⟩, ?_, by rw [hd']; exact hd⟩
    intro k hk
    have hap := hal j g hne hj (st + k) ⟨by rw [hfs]; omega, by rw [hfs, hfd]; omega⟩
    rw [hm', List.getElem?_set_ne]
    · exact hm k hk
    · intro heq
      exact hap ⟨by omega, by omega⟩
  | finish j g hj hp hm' hd' hl' =>
    refine ⟨?_, by rw [hm']; exact hm, by rw [hd']; exact hd⟩
    by_cases hji : j = i
    · subst hji
      rw [he] at hj; cases hj
      exact ⟨{ e with returned := true }, by rw [hl']; exact List.getElem?_set_self (List.getElem?_eq_some_iff.mp he).1, hes, hed, hep⟩
    · exact ⟨e, by rw [hl', List.getElem?_set_ne hji]; exact he, hes, hed, hep⟩
  | msync j g r hj hp hm' hd' hr hl' =>
    refine ⟨?_, by rw [hm']; exact hm, ?_⟩
    · by_cases hji : j = i
      · subst hji
        rw [he] at hj; cases hj
        exact ⟨{ e with returned := true }, by rw [hl']; exact List.getElem?_set_self (List.getElem?_eq_some_iff.mp he).1, hes, hed, hep⟩
      · exact ⟨e, by rw [hl', List.getElem?_set_ne hji]; exact he, hes, hed, hep⟩
    · intro k hk
      have hlen := hi.len; have hdlen := hi.dlen
      rw [hd', getElem?_over _ _ _ (by simp; omega)]
      split
      · rename_i hc
        rw [List.getElem?_take_of_lt (by simp at hc; omega), List.getElem?_drop]
        rw [← hm k hk]; congr 1; omega
      · exact hd k hk
  | writeback a ha hm' hd' hl' =>
    refine ⟨⟨e, by rw [hl']; exact he, hes, hed, hep⟩, by rw [hm']; exact hm, ?_⟩
    intro k hk
    rw [hd']
    have hlen := hi.len; have hdlen := hi.dlen
    by_cases hk' : a = st + k
    · subst hk'
      rw [List.getElem?_set_self (by omega), ← hm k hk, List.getD_eq_getElem?_getD]
      simp [List.getElem?_eq_getElem ha]
    · rw [List.getElem?_set_ne hk']; exact hd k hk

theorem onDisk_exec {page : Nat} {file : List UInt8} (hf : file.length < maxLen) {i st : Nat} {d : List UInt8} {s s' : St} {as : List Act}
    (hi : Inv file s) (ho : OnDisk i st d s) {f : Entry} (hfs : f.start = st) (hfd : f.data = d) (hal : Alone s'.log i f)
    (h : exec page s as = some s') : OnDisk i st d s' := by
  induction as generalizing s with
  | nil => simp only [exec, Option.some.injEq] at h; subst h; exact ho
  | cons a as ih =>
    have hb := alone_back h hal
    simp only [exec] at h
    cases hx : act page s a with
    | none => simp [hx] at h
    | some t =>
      simp only [hx] at h
      exact ih (inv_act hf hi hx) (onDisk_step hi ho hfs hfd hb hx) h

end Gofer.Mmap
