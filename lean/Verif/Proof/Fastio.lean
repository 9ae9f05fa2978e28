import Verif.Model.Fastio
import Verif.Spec.Mmap
import Verif.Proof.Count

/-! # `fastio`: helper lemmas -/
namespace Gofer.Fastio
open Gofer.Count

/-! ### Classes of calls -/

/-- Between the two accesses to `m.cc`. -/
def active (c : Call) : Bool := match c.pc with | .enter | .ret => false | _ => true

/-- In the fast path. -/
def fastRun (c : Call) : Bool := active c && c.fast

/-- Holding the lock. -/
def critPc : Pc → Bool
  | .check | .write | .add _ | .unlock | .ioEnter | .ioSet | .ioRecv | .ioAdd _ | .ioDec | .ioEnd | .ioFlush | .ioClose => true
  | _ => false

def crit (c : Call) : Bool := critPc c.pc
def rd (c : Call) : Bool := crit c && (c.fast && !c.sync)
def wr (c : Call) : Bool := crit c && !(c.fast && !c.sync)

/-- About to send. -/
def sending (c : Call) : Bool := match c.pc with | .send => true | _ => false

/-- Received, but `m.wc` not yet decremented. -/
def taken (c : Call) : Bool := match c.pc with | .ioAdd _ | .ioDec => true | _ => false

/-- The path fits the place. -/
def wfPc (fast sync : Bool) : Pc → Bool
  | .enter => !fast
  | .lock | .check | .write | .add _ => fast
  | .inc | .send | .test | .tryLock => !fast
  | .test2 => !fast && !sync
  | .wait => !fast && sync
  | _ => true

def wf (c : Call) : Bool := wfPc c.fast c.sync c.pc

theorem crit_cnt (l : List Call) : l.countP crit = l.countP wr + l.countP rd := by
  induction l with
  | nil => rfl
  | cons x xs ih =>
    have : ((if crit x = true then 1 else 0) : Nat) = (if wr x = true then 1 else 0) + if rd x = true then 1 else 0 := by
      have h1 : wr x = (crit x && !(x.fast && !x.sync)) := rfl
      have h2 : rd x = (crit x && (x.fast && !x.sync)) := rfl
      rw [h1, h2]
      have key : ∀ a b : Bool, ((if a = true then 1 else 0) : Nat) = (if (a && !b) = true then 1 else 0) + if (a && b) = true then 1 else 0 := by decide
      exact key _ _
    simp only [List.countP_cons, ih]
    omega

/-- Counters and lock. -/
structure InvA (s : St) : Prop where
  cc : s.cc = s.log.countP active
  fast : s.log.countP fastRun ≤ 1
  w : s.log.countP wr = s.w.toNat
  r : s.log.countP rd = s.r
  one : s.log.countP crit ≤ 1
  wc : s.wc = s.ch.length + s.log.countP sending + s.log.countP taken
  wf : ∀ (i : Nat) (c : Call), s.log[i]? = some c → wf c = true

theorem invA_init (content : List UInt8) : InvA (newFile content) :=
  ⟨rfl, by simp [newFile], rfl, rfl, by simp [newFile], rfl, by simp [newFile]⟩

theorem wf_set {log : List Call} {i : Nat} {c' : Call} (h : ∀ (i : Nat) (c : Call), log[i]? = some c → wf c = true) (hc : wf c' = true) :
    ∀ (j : Nat) (d : Call), (log.set i c')[j]? = some d → wf d = true := by
  intro j d hj
  rw [List.getElem?_set] at hj
  split at hj
  · split at hj
    · cases hj; exact hc
    · cases hj
  · exact h j d hj

/-- One call changes, and the shared counters with it. -/
theorem invA_set {s t : St} {i : Nat} {c c' : Call} (h : InvA s) (hi : s.log[i]? = some c) (hl : t.log = s.log.set i c')
    (hcc : t.cc + (active c).toNat = s.cc + (active c').toNat)
    (hfast : s.log.countP fastRun + (fastRun c').toNat ≤ 1 + (fastRun c).toNat)
    (hw : t.w.toNat + (wr c).toNat = s.w.toNat + (wr c').toNat)
    (hr : t.r + (rd c).toNat = s.r + (rd c').toNat)
    (hone : s.log.countP crit + (crit c').toNat ≤ 1 + (crit c).toNat)
    (hwc : t.wc + s.ch.length + (sending c).toNat + (taken c).toNat = s.wc + t.ch.length + (sending c').toNat + (taken c').toNat)
    (hwf : wf c' = true) : InvA t := by
  have h1 := cnt_set (p := active) (c' := c') hi
  have h2 := cnt_set (p := fastRun) (c' := c') hi
  have h3 := cnt_set (p := wr) (c' := c') hi
  have h4 := cnt_set (p := rd) (c' := c') hi
  have h5 := cnt_set (p := crit) (c' := c') hi
  have h6 := cnt_set (p := sending) (c' := c') hi
  have h7 := cnt_set (p := taken) (c' := c') hi
  have := h.cc
  have := h.fast
  have := h.w
  have := h.r
  have := h.one
  have := h.wc
  refine ⟨?_, ?_, ?_, ?_, ?_, ?_, ?_⟩ <;> rw [hl]
  · omega
  · omega
  · omega
  · omega
  · omega
  · omega
  · exact wf_set h.wf hwf

/-- Only fields that do not count change in one call. -/
theorem invA_log {s : St} {x : Nat} {d d' : Call} (h : InvA s) (hx : s.log[x]? = some d) (hp : d'.pc = d.pc) (hf : d'.fast = d.fast)
    (hs : d'.sync = d.sync) : InvA { s with log := s.log.set x d' } := by
  have hwf := h.wf x d hx
  have hle := h.fast
  have hone := h.one
  have e1 : active d' = active d := by simp only [active, hp]
  have e2 : fastRun d' = fastRun d := by simp only [fastRun, e1, hf]
  have e3 : crit d' = crit d := by simp only [crit, hp]
  have e4 : wr d' = wr d := by simp only [wr, e3, hf, hs]
  have e5 : rd d' = rd d := by simp only [rd, e3, hf, hs]
  have e6 : sending d' = sending d := by simp only [sending, hp]
  have e7 : taken d' = taken d := by simp only [taken, hp]
  have e8 : wf d' = wf d := by simp only [wf, hp, hf, hs]
  refine invA_set h hx rfl ?_ ?_ ?_ ?_ ?_ ?_ ?_ <;> simp only [e1, e2, e3, e4, e5, e6, e7, e8]
  · omega
  · omega
  · exact hwf

/-- Evaluate the classes at a known place. -/
macro "fin" : tactic => `(tactic| first
  | omega
  | (simp only [active, fastRun, crit, critPc, rd, wr, sending, taken, wf, wfPc, goto, ioRet, Bool.toNat_true, Bool.toNat_false,
      Bool.and_true, Bool.and_false, Bool.true_and, Bool.false_and, Bool.not_true, Bool.not_false, Nat.add_zero, if_true,
      Bool.false_eq_true, if_false, List.length_append, List.length_cons, List.length_nil, *] <;> omega)
  | simp [active, fastRun, crit, critPc, rd, wr, sending, taken, wf, wfPc, goto, ioRet, *])

theorem invA_step {cap : Nat} {s t : St} {i : Nat} {c : Call} (h : InvA s) (hi : s.log[i]? = some c) (hio : c.ioErr = false)
    (hs : step cap s i c = some t) : InvA t := by
  have hwf := h.wf i c hi
  have hfl := h.fast
  have hone := h.one
  have hw := h.w
  have hr := h.r
  have hwc := h.wc
  have hcc := h.cc
  have hcr := crit_cnt s.log
  obtain ⟨sync, arg, data, fast, pc, off, done, bw, wds, ioErr, err⟩ := c
  simp only at hio
  subst hio
  cases pc <;> simp only [wf, wfPc] at hwf
  case enter =>
    simp only [step, stepEnter, Option.some.injEq] at hs
    cases fast
    · split at hs
      · subst hs
        have : s.log.countP fastRun ≤ s.log.countP active := cnt_le _ fun a ha => by simp only [fastRun, Bool.and_eq_true] at ha; exact ha.1
        exact invA_set h hi rfl (by fin) (by fin) (by fin) (by fin) (by fin) (by fin) (by fin)
      · subst hs
        exact invA_set h hi rfl (by fin) (by fin) (by fin) (by fin) (by fin) (by fin) (by fin)
    · cases hwf
  case lock =>
    subst hwf
    simp only [step, stepLock] at hs
    cases sync <;> simp only [Bool.false_eq_true, if_true, if_false] at hs
    · split at hs
      · rename_i hg
        simp only [Bool.not_eq_true'] at hg
        simp only [Option.some.injEq] at hs
        subst hs
        have : s.log.countP rd + 1 ≤ s.log.countP fastRun := cnt_lt hi (fun a ha => by
          simp only [rd, crit, Bool.and_eq_true] at ha
          simp only [fastRun, active, Bool.and_eq_true]
          refine ⟨?_, ha.2.1⟩
          split <;> simp_all [critPc]) (by fin) (by fin)
        rw [hg] at hw
        simp only [Bool.toNat_false] at hw
        exact invA_set h hi rfl (by fin) (by fin) (by fin) (by fin) (by fin) (by fin) (by fin)
      · cases hs
    · split at hs
      · rename_i hg
        simp only [Bool.and_eq_true, Bool.not_eq_true', beq_iff_eq] at hg
        simp only [Option.some.injEq] at hs
        subst hs
        rw [hg.1] at hw
        simp only [Bool.toNat_false] at hw
        exact invA_set h hi rfl (by fin) (by fin) (by simp [goto, hg.1]; fin) (by fin) (by fin) (by fin) (by fin)
      · cases hs
  case unlock =>
    have h1 := cnt_pos (p := crit) hi (by fin)
    simp only [step, stepUnlock, Option.some.injEq] at hs
    split at hs
    · rename_i hg
      simp only [Bool.and_eq_true, Bool.not_eq_true'] at hg
      obtain ⟨rfl, rfl⟩ := hg
      have h2 := cnt_pos (p := rd) hi (by fin)
      subst hs
      exact invA_set h hi rfl (by fin) (by fin) (by fin) (by fin) (by fin) (by fin) (by fin)
    · rename_i hg
      have hg' : (fast && !sync) = false := by simpa using hg
      have h2 := cnt_pos (p := wr) hi (by simp [wr, crit, critPc, hg'])
      subst hs
      have hsw : s.w = true := by
        cases hq : s.w with
        | true => rfl
        | false => rw [hq, Bool.toNat_false] at hw; omega
      refine invA_set h hi rfl (by fin) (by fin) ?_ ?_ (by fin) (by fin) (by fin)
      · simp [goto, wr, crit, critPc, hg', hsw]
      · simp [goto, rd, crit, critPc, hg']
  case tryLock =>
    simp only [step, stepTryLock, Option.some.injEq] at hs
    simp only [Bool.not_eq_true'] at hwf
    subst hwf
    split at hs
    · rename_i hg
      simp only [Bool.and_eq_true, Bool.not_eq_true', beq_iff_eq] at hg
      subst hs
      rw [hg.1] at hw
      simp only [Bool.toNat_false] at hw
      exact invA_set h hi rfl (by fin) (by fin) (by simp [goto, hg.1]; fin) (by fin) (by fin) (by fin) (by fin)
    · subst hs
      cases sync <;> exact invA_set h hi rfl (by fin) (by fin) (by fin) (by fin) (by fin) (by fin) (by fin)
  case send =>
    simp only [step] at hs
    split at hs
    · simp only [Option.some.injEq] at hs
      subst hs
      exact invA_set h hi rfl (by fin) (by fin) (by fin) (by fin) (by fin) (by fin) (by fin)
    · cases hs
  case wait =>
    simp only [step] at hs
    split at hs
    · simp only [Option.some.injEq] at hs
      subst hs
      exact invA_set h hi rfl (by fin) (by fin) (by fin) (by fin) (by fin) (by fin) (by fin)
    · cases hs
  case ret => simp [step] at hs
  case ioDec =>
    have h1 := cnt_pos (p := taken) hi (by fin)
    simp only [step, Option.some.injEq] at hs
    subst hs
    split <;> exact invA_set h hi rfl (by fin) (by fin) (by fin) (by fin) (by fin) (by fin) (by fin)
  case dec =>
    have h1 := cnt_pos (p := active) hi (by fin)
    simp only [step, Option.some.injEq] at hs
    subst hs
    exact invA_set h hi rfl (by fin) (by fin) (by fin) (by fin) (by fin) (by fin) (by fin)
  case check =>
    subst hwf
    simp only [step, Option.some.injEq] at hs
    subst hs
    split <;> exact invA_set h hi rfl (by fin) (by fin) (by fin) (by fin) (by fin) (by fin) (by fin)
  case test =>
    simp only [Bool.not_eq_true'] at hwf
    subst hwf
    simp only [step, Option.some.injEq] at hs
    subst hs
    cases s.ioend <;> cases sync <;> exact invA_set h hi rfl (by fin) (by fin) (by fin) (by fin) (by fin) (by fin) (by fin)
  case test2 =>
    simp only [Bool.and_eq_true, Bool.not_eq_true'] at hwf
    obtain ⟨rfl, rfl⟩ := hwf
    simp only [step, Option.some.injEq] at hs
    subst hs
    cases s.ioend <;> exact invA_set h hi rfl (by fin) (by fin) (by fin) (by fin) (by fin) (by fin) (by fin)
  case ioEnter =>
    simp only [step, Option.some.injEq] at hs
    subst hs
    split <;> cases fast <;> exact invA_set h hi rfl (by fin) (by fin) (by fin) (by fin) (by fin) (by fin) (by fin)
  case ioRecv =>
    simp only [step, stepRecv] at hs
    split at hs
    · cases hs
    · rename_i x ch hch
      split at hs
      · cases hs
      · rename_i d hd
        split at hs
        · cases hs
        · rename_i c hc
          simp only [Option.some.injEq] at hs
          subst hs
          have h' := invA_log (d' := { d with off := s.offset }) h hd rfl rfl rfl
          have hcpc : c.pc = .ioRecv := by
            rw [List.getElem?_set] at hc
            split at hc
            · rename_i hx
              subst hx
              rw [hi] at hd
              split at hc <;> cases hc
              cases hd; rfl
            · rw [hi] at hc; cases hc; rfl
          have hcf := h'.wf i c hc
          have hfl := h'.fast
          have hone := h'.one
          obtain ⟨sync, arg, data, fast, pc, off, done, bw, wds, ioErr, err⟩ := c
          simp only at hcpc
          subst hcpc
          simp only at hfl hone
          exact invA_set h' hc rfl (by fin) (by fin) (by fin) (by fin) (by fin) (by simp [hch]; fin) (by fin)
  case ioAdd x =>
    simp only [step] at hs
    split at hs
    · cases hs
    · simp only [Option.some.injEq] at hs
      subst hs
      exact invA_set h hi rfl (by fin) (by fin) (by fin) (by fin) (by fin) (by fin) (by fin)
  case ioClose =>
    simp only [step, stepClose] at hs
    split at hs
    · rename_i wds1 x wds'
      split at hs
      · cases hs
      · rename_i d hd
        split at hs
        · cases hs
        · rename_i c hc
          simp only [Option.some.injEq] at hs
          subst hs
          have h' := invA_log (d' := { d with done := true }) h hd rfl rfl rfl
          exact invA_log (d' := { c with wds := wds' }) h' hc rfl rfl rfl
    · simp only [Bool.false_and, Bool.false_eq_true, if_false, Option.some.injEq] at hs
      subst hs
      cases fast <;> exact invA_set h hi rfl (by fin) (by fin) (by fin) (by fin) (by fin) (by fin) (by fin)
  all_goals
    simp only [step, Option.some.injEq] at hs
    subst hs
    exact invA_set h hi rfl (by fin) (by fin) (by fin) (by fin) (by fin) (by fin) (by fin)

/-! ### Data -/

/-- The bytes call `x` was asked to write. -/
def argOf (log : List Call) (x : Nat) : List UInt8 := ((log[x]?).map (·.arg)).getD []

def pend (log : List Call) : List UInt8 := (log.map (·.bw)).flatten

/-- Bytes written but not yet counted in the offset. -/
def gapOf (f : Nat → List UInt8) (c : Call) : Nat := match c.pc with | .add n => n | .ioAdd x => (f x).length | _ => 0

def gap (f : Nat → List UInt8) (log : List Call) : Nat := (log.map (gapOf f)).sum

/-- In the queue or behind it. -/
def sent (c : Call) : Bool := match c.pc with | .enter | .inc | .send => false | _ => !c.fast

/-- In the file by the fast path. -/
def placed (c : Call) : Bool := match c.pc with | .add _ | .unlock | .dec | .ret => c.fast | _ => false

def bwPc : Pc → Bool | .ioRecv | .ioAdd _ | .ioDec | .ioEnd | .ioFlush => true | _ => false
def ioPc : Pc → Bool | .ioRecv | .ioAdd _ | .ioDec | .ioEnd | .ioFlush | .ioClose => true | _ => false
def isAdd : Pc → Bool | .add _ => true | _ => false

/-- A slow path call that has emptied the queue. -/
def drained (c : Call) : Bool := match c.pc with | .ioEnd | .ioFlush | .ioClose | .unlock => !c.fast | _ => false

/-- Its data is in the file. -/
def flq (c : Call) : Bool := c.done || placed c || (match c.pc with | .dec | .ret => !c.fast && c.sync | _ => false)

def Place (n : Nat) (f : Nat → List UInt8) (order : List Nat) (i off : Nat) : Prop :=
  ∃ pre post, order = pre ++ i :: post ∧ off = n + (pre.flatMap f).length

def Fl (n : Nat) (f : Nat → List UInt8) (order : List Nat) (len i : Nat) : Prop :=
  ∃ pre post, order = pre ++ i :: post ∧ n + (pre.flatMap f).length + (f i).length ≤ len

/-- Data invariant. -/
structure InvB (init : List UInt8) (s : St) : Prop where
  noErr : ∀ (i : Nat) (c : Call), s.log[i]? = some c → c.ioErr = false
  bwc : ∀ (i : Nat) (c : Call), s.log[i]? = some c → c.bw ≠ [] → bwPc c.pc = true
  wdsc : ∀ (i : Nat) (c : Call), s.log[i]? = some c → ∀ x ∈ c.wds, x ∈ s.order ∧ ioPc c.pc = true
  len : ∀ (i : Nat) (c : Call), s.log[i]? = some c → c.data.length = c.arg.length
  nodup : (s.order ++ s.ch).Nodup
  inch : ∀ x ∈ s.ch, ∃ c, s.log[x]? = some c ∧ sent c = true
  inord : ∀ x ∈ s.order, ∃ c, s.log[x]? = some c ∧ (placed c = true ∨ sent c = true)
  plc : ∀ (i : Nat) (c : Call), s.log[i]? = some c → placed c = true → i ∈ s.order
  snt : ∀ (i : Nat) (c : Call), s.log[i]? = some c → sent c = true → i ∈ s.order ∨ i ∈ s.ch
  fresh : ∀ (i : Nat) (c : Call), s.log[i]? = some c → i ∉ s.order → c.data = c.arg
  bytes : s.file ++ pend s.log = init ++ s.order.flatMap (argOf s.log)
  offs : s.offset + gap (argOf s.log) s.log = init.length + (s.order.flatMap (argOf s.log)).length
  addN : ∀ (i : Nat) (c : Call), s.log[i]? = some c → ∀ n, c.pc = .add n → n = c.arg.length
  addX : ∀ (i : Nat) (c : Call), s.log[i]? = some c → ∀ x, c.pc = .ioAdd x → x ∈ s.order
  addLast : ∀ (i : Nat) (c : Call), s.log[i]? = some c → isAdd c.pc = true → ∃ pre, s.order = pre ++ [i]
  place : ∀ (i : Nat) (c : Call), s.log[i]? = some c → i ∈ s.order → (c.sync = true ∨ c.fast = false) → isAdd c.pc = false →
    Place init.length (argOf s.log) s.order i c.off
  drn : ∀ (i : Nat) (c : Call), s.log[i]? = some c → drained c = true → i ∈ s.order
  fl : ∀ (i : Nat) (c : Call), s.log[i]? = some c → flq c = true → Fl init.length (argOf s.log) s.order s.file.length i

theorem invB_init (content : List UInt8) : InvB content (newFile content) where
  noErr := by simp [newFile]
  bwc := by simp [newFile]
  wdsc := by simp [newFile]
  len := by simp [newFile]
  nodup := by simp [newFile]
  inch := by simp [newFile]
  inord := by simp [newFile]
  plc := by simp [newFile]
  snt := by simp [newFile]
  fresh := by simp [newFile]
  bytes := by simp [newFile, pend]
  offs := by simp [newFile, gap]
  addN := by simp [newFile]
  addX := by simp [newFile]
  addLast := by simp [newFile]
  place := by simp [newFile]
  drn := by simp [newFile]
  fl := by simp [newFile]

theorem argOf_set {log : List Call} {i : Nat} {c c' : Call} (hi : log[i]? = some c) (ha : c'.arg = c.arg) : argOf (log.set i c') = argOf log := by
  funext x
  simp only [argOf, List.getElem?_set]
  split
  · rename_i hx
    subst hx
    have : i < log.length := (List.getElem?_eq_some_iff.1 hi).1
    rw [hi]
    simp [this, ha]
  · rfl

theorem Place.app {n : Nat} {f : Nat → List UInt8} {order : List Nat} {i off : Nat} (h : Place n f order i off) (e : List Nat) :
    Place n f (order ++ e) i off := by
  obtain ⟨pre, post, rfl, h⟩ := h
  exact ⟨pre, post ++ e, by simp, h⟩

theorem Fl.app {n : Nat} {f : Nat → List UInt8} {order : List Nat} {len i : Nat} (h : Fl n f order len i) (e : List Nat) {len' : Nat}
    (hl : len ≤ len') : Fl n f (order ++ e) len' i := by
  obtain ⟨pre, post, rfl, h⟩ := h
  exact ⟨pre, post ++ e, by simp, by omega⟩

/-- One call changes, and the shared state with it. -/
theorem invB_set {init : List UInt8} {s t : St} {i : Nat} {c c' : Call} {e : List Nat} {g : List UInt8} (h : InvB init s)
    (hi : s.log[i]? = some c) (hl : t.log = s.log.set i c') (harg : c'.arg = c.arg)
    (ho : t.order = s.order ++ e) (hf : t.file = s.file ++ g)
    (hch : ∀ x ∈ s.ch, x ∈ t.order ∨ x ∈ t.ch)
    (hnd : (t.order ++ t.ch).Nodup)
    (hE : e = [] ∨ ∀ (j : Nat) (d : Call), j ≠ i → s.log[j]? = some d → isAdd d.pc = false)
    (hin : ∀ x ∈ t.ch, x ≠ i → x ∈ s.ch)
    (hino : ∀ x ∈ e, x ≠ i → x ∈ s.ch)
    (hnew : i ∈ t.ch → sent c' = true)
    (hnewo : i ∈ t.order → placed c' = true ∨ sent c' = true)
    (hplo : ∀ x ∈ e, x ≠ i → ∀ d, s.log[x]? = some d → Place init.length (argOf s.log) t.order x d.off)
    (hbytes : t.file ++ pend (s.log.set i c') = init ++ t.order.flatMap (argOf s.log))
    (hoffs' : t.offset + gap (argOf s.log) (s.log.set i c') = init.length + (t.order.flatMap (argOf s.log)).length)
    (h1 : c'.ioErr = false)
    (h2 : c'.bw ≠ [] → bwPc c'.pc = true)
    (h3 : ∀ x ∈ c'.wds, x ∈ t.order ∧ ioPc c'.pc = true)
    (h4 : c'.data.length = c'.arg.length)
    (h5 : placed c' = true → i ∈ t.order)
    (h6 : sent c' = true → i ∈ t.order ∨ i ∈ t.ch)
    (h7 : i ∉ t.order → c'.data = c'.arg)
    (h8 : ∀ n, c'.pc = .add n → n = c'.arg.length)
    (h8x : ∀ x, c'.pc = .ioAdd x → x ∈ t.order)
    (h8' : isAdd c'.pc = true → ∃ pre, t.order = pre ++ [i])
    (h9 : i ∈ t.order → (c'.sync = true ∨ c'.fast = false) → isAdd c'.pc = false → Place init.length (argOf s.log) t.order i c'.off)
    (h10 : drained c' = true → i ∈ t.order)
    (h11 : flq c' = true → Fl init.length (argOf s.log) t.order t.file.length i) : InvB init t := by
  have hsub : ∀ x, x ∈ s.order → x ∈ t.order := fun x hx => by rw [ho]; exact List.mem_append_left _ hx
  have hA : argOf t.log = argOf s.log := by rw [hl]; exact argOf_set hi harg
  have hlen : s.file.length ≤ t.file.length := by rw [hf]; simp
  have all : ∀ (P : Nat → Call → Prop), P i c' → (∀ j d, j ≠ i → s.log[j]? = some d → P j d) → ∀ (j : Nat) (d : Call), t.log[j]? = some d → P j d := by
    intro P hP hQ j d hj
    rw [hl] at hj
    rcases get_set_cases hj with ⟨rfl, rfl⟩ | ⟨hne, hj⟩
    · exact hP
    · exact hQ j d hne hj
  refine ⟨?_, ?_, ?_, ?_, hnd, ?_, ?_, ?_, ?_, ?_, ?_, ?_, ?_, ?_, ?_, ?_, ?_, ?_⟩
  · exact all (fun _ c => c.ioErr = false) h1 fun j d _ hj => h.noErr j d hj
  · exact all (fun _ c => c.bw ≠ [] → bwPc c.pc = true) h2 fun j d _ hj => h.bwc j d hj
  · exact all (fun _ c => ∀ x ∈ c.wds, x ∈ t.order ∧ ioPc c.pc = true) h3 fun j d _ hj x hx =>
      ⟨hsub x (h.wdsc j d hj x hx).1, (h.wdsc j d hj x hx).2⟩
  · exact all (fun _ c => c.data.length = c.arg.length) h4 fun j d _ hj => h.len j d hj
  · intro x hx
    rw [hl]
    by_cases hxi : x = i
    · subst hxi
      exact ⟨c', get_set_self hi, hnew hx⟩
    · rw [get_set_ne hxi]
      exact h.inch x (hin x hx hxi)
  · intro x hx
    rw [hl]
    by_cases hxi : x = i
    · subst hxi
      exact ⟨c', get_set_self hi, hnewo hx⟩
    · rw [get_set_ne hxi]
      rw [ho, List.mem_append] at hx
      rcases hx with hx | hx
      · exact h.inord x hx
      · obtain ⟨d, hd, hs⟩ := h.inch x (hino x hx hxi)
        exact ⟨d, hd, .inr hs⟩
  · exact all (fun j c => placed c = true → j ∈ t.order) h5 fun j d _ hj hp => hsub j (h.plc j d hj hp)
  · exact all (fun j c => sent c = true → j ∈ t.order ∨ j ∈ t.ch) h6 fun j d _ hj hp => by
      rcases h.snt j d hj hp with hx | hx
      · exact .inl (hsub j hx)
      · exact hch j hx
  · exact all (fun j c => j ∉ t.order → c.data = c.arg) h7 fun j d _ hj hn => h.fresh j d hj fun hx => hn (hsub j hx)
  · rw [hA, hl]; exact hbytes
  · rw [hA, hl]; exact hoffs'
  · exact all (fun _ c => ∀ n, c.pc = .add n → n = c.arg.length) h8 fun j d _ hj => h.addN j d hj
  · exact all (fun _ c => ∀ x, c.pc = .ioAdd x → x ∈ t.order) h8x fun j d _ hj x hx => hsub x (h.addX j d hj x hx)
  · refine all (fun j c => isAdd c.pc = true → ∃ pre, t.order = pre ++ [j]) h8' fun j d hne hj hx => ?_
    rcases hE with rfl | hE
    · rw [ho, List.append_nil]; exact h.addLast j d hj hx
    · rw [hE j d hne hj] at hx; cases hx
  · rw [hA]
    refine all (fun j c => j ∈ t.order → (c.sync = true ∨ c.fast = false) → isAdd c.pc = false →
      Place init.length (argOf s.log) t.order j c.off) h9 fun j d hne hj hx hk hadd => ?_
    rw [ho, List.mem_append] at hx
    rcases hx with hx | hx
    · rw [ho]
      exact (h.place j d hj hx hk hadd).app e
    · exact hplo j hx hne d hj
  · exact all (fun j c => drained c = true → j ∈ t.order) h10 fun j d _ hj hp => hsub j (h.drn j d hj hp)
  · rw [hA]
    refine all (fun j c => flq c = true → Fl init.length (argOf s.log) t.order t.file.length j) h11 fun j d hne hj hx => ?_
    rw [ho]
    exact (h.fl j d hj hx).app e hlen

theorem pend_set_same {log : List Call} {i : Nat} {c c' : Call} (hi : log[i]? = some c) (hb : c'.bw = c.bw) : pend (log.set i c') = pend log := by
  induction log generalizing i with
  | nil => simp at hi
  | cons x xs ih =>
    cases i with
    | zero =>
      simp only [List.getElem?_cons_zero, Option.some.injEq] at hi
      subst hi
      simp [pend, hb]
    | succ i =>
      simp only [List.getElem?_cons_succ] at hi
      have := ih hi
      simp only [pend] at this
      simp only [pend, List.set_cons_succ, List.map_cons, List.flatten_cons, this]

theorem pend_nil {log : List Call} (h : ∀ (j : Nat) (d : Call), log[j]? = some d → d.bw = []) : pend log = [] := by
  simp only [pend, List.flatten_eq_nil_iff, List.mem_map]
  rintro l ⟨d, hd, rfl⟩
  obtain ⟨j, hj⟩ := List.mem_iff_getElem?.1 hd
  exact h j d hj

theorem pend_single {log : List Call} {i : Nat} {c : Call} (hi : log[i]? = some c) (h : ∀ (j : Nat) (d : Call), j ≠ i → log[j]? = some d → d.bw = []) :
    pend log = c.bw := by
  induction log generalizing i with
  | nil => simp at hi
  | cons x xs ih =>
    cases i with
    | zero =>
      simp only [List.getElem?_cons_zero, Option.some.injEq] at hi
      subst hi
      have := pend_nil (log := xs) fun j d hj => h (j + 1) d (by omega) (by simpa using hj)
      simp only [pend] at this
      simp [pend, this]
    | succ i =>
      simp only [List.getElem?_cons_succ] at hi
      have h1 := ih hi fun j d hne hj => h (j + 1) d (by omega) (by simpa using hj)
      have h2 := h 0 x (by omega) (by simp)
      simp only [pend] at h1
      simp [pend, h1, h2]

theorem gap_set {f : Nat → List UInt8} {log : List Call} {i : Nat} {c c' : Call} (hi : log[i]? = some c) :
    gap f (log.set i c') + gapOf f c = gap f log + gapOf f c' := by
  induction log generalizing i with
  | nil => simp at hi
  | cons x xs ih =>
    cases i with
    | zero =>
      simp only [List.getElem?_cons_zero, Option.some.injEq] at hi
      subst hi
      simp only [gap, List.set_cons_zero, List.map_cons, List.sum_cons]
      omega
    | succ i =>
      simp only [List.getElem?_cons_succ] at hi
      have := ih hi
      simp only [gap] at this
      simp only [gap, List.set_cons_succ, List.map_cons, List.sum_cons]
      omega

theorem gap_nil {f : Nat → List UInt8} {log : List Call} (h : ∀ (j : Nat) (d : Call), log[j]? = some d → gapOf f d = 0) : gap f log = 0 := by
  simp only [gap, List.sum_eq_zero_iff_forall_eq_nat, List.mem_map]
  rintro l ⟨d, hd, rfl⟩
  obtain ⟨j, hj⟩ := List.mem_iff_getElem?.1 hd
  exact h j d hj

theorem gap_single {f : Nat → List UInt8} {log : List Call} {i : Nat} {c : Call} (hi : log[i]? = some c)
    (h : ∀ (j : Nat) (d : Call), j ≠ i → log[j]? = some d → gapOf f d = 0) : gap f log = gapOf f c := by
  induction log generalizing i with
  | nil => simp at hi
  | cons x xs ih =>
    cases i with
    | zero =>
      simp only [List.getElem?_cons_zero, Option.some.injEq] at hi
      subst hi
      have := gap_nil (f := f) (log := xs) fun j d hj => h (j + 1) d (by omega) (by simpa using hj)
      simp only [gap] at this
      simp [gap, this]
    | succ i =>
      simp only [List.getElem?_cons_succ] at hi
      have h1 := ih hi fun j d hne hj => h (j + 1) d (by omega) (by simpa using hj)
      have h2 := h 0 x (by omega) (by simp)
      simp only [gap] at h1
      simp [gap, h1, h2]

theorem bwPc_crit {p : Pc} (h : bwPc p = true) : critPc p = true := by cases p <;> simp_all [bwPc, critPc]

theorem gap_crit {f : Nat → List UInt8} {c : Call} (h : crit c = false) : gapOf f c = 0 := by
  unfold crit at h
  unfold gapOf
  cases hp : c.pc <;> simp_all [critPc]

/-- No other call has anything buffered or uncounted. -/
theorem others {init : List UInt8} {s : St} {i : Nat} {c : Call} (ha : InvA s) (h : InvB init s) (hi : s.log[i]? = some c) (hc : crit c = true) :
    (∀ (j : Nat) (d : Call), j ≠ i → s.log[j]? = some d → d.bw = []) ∧
    ∀ (j : Nat) (d : Call), j ≠ i → s.log[j]? = some d → gapOf (argOf s.log) d = 0 := by
  have nc : ∀ (j : Nat) (d : Call), j ≠ i → s.log[j]? = some d → crit d = false := by
    intro j d hne hj
    cases hd : crit d with
    | false => rfl
    | true => exact absurd (cnt_one ha.one hj hi hd hc) hne
  refine ⟨fun j d hne hj => ?_, fun j d hne hj => gap_crit (nc j d hne hj)⟩
  refine Classical.byContradiction fun hb => ?_
  have := bwPc_crit (h.bwc j d hj hb)
  have := nc j d hne hj
  simp_all [crit]

theorem free_file {init : List UInt8} {s : St} {i : Nat} {c : Call} (ha : InvA s) (h : InvB init s) (hi : s.log[i]? = some c) (hc : crit c = true) :
    s.file ++ c.bw = init ++ s.order.flatMap (argOf s.log) ∧
    s.offset + gapOf (argOf s.log) c = init.length + (s.order.flatMap (argOf s.log)).length := by
  obtain ⟨h1, h2⟩ := others ha h hi hc
  exact ⟨by rw [← pend_single hi h1]; exact h.bytes, by rw [← gap_single hi h2]; exact h.offs⟩

/-- Only the place of one call changes. -/
theorem invB_pc {init : List UInt8} {s t : St} {i : Nat} {c c' : Call} (h : InvB init s) (hi : s.log[i]? = some c)
    (hl : t.log = s.log.set i c') (ho : t.order = s.order) (hf : t.file = s.file) (hch : t.ch = s.ch) (hoff : t.offset = s.offset)
    (e1 : c'.arg = c.arg) (e2 : c'.data = c.data) (e3 : c'.bw = c.bw) (e4 : c'.wds = c.wds) (e5 : c'.off = c.off) (e6 : c'.sync = c.sync)
    (e7 : c'.ioErr = c.ioErr)
    (hsent : sent c' = sent c) (hplc : placed c' = placed c)
    (hfast : c'.fast = c.fast ∨ (sent c = false ∧ placed c = false))
    (hg : ∀ f, gapOf f c' = 0) (hg' : ∀ f, gapOf f c = 0) (hnx : ∀ x, c'.pc ≠ .ioAdd x) (hadd : isAdd c'.pc = false) (hadd' : isAdd c.pc = false)
    (hbw : c.bw ≠ [] → bwPc c'.pc = true) (hwds : c.wds ≠ [] → ioPc c'.pc = true)
    (hdr : drained c' = true → drained c = true ∨ i ∈ s.order)
    (hfl : flq c' = true → flq c = true ∨ Fl init.length (argOf s.log) s.order s.file.length i) : InvB init t := by
  have hno : sent c = false → placed c = false → i ∉ s.order := by
    intro h1 h2 hx
    obtain ⟨d, hd, hs⟩ := h.inord i hx
    rw [hi] at hd
    cases hd
    simp_all
  refine invB_set (e := []) (g := []) h hi hl e1 (by simp [ho]) (by simp [hf]) ?_ ?_ ?_ ?_ ?_ ?_ ?_ ?_ ?_ ?_ ?_ ?_ ?_ ?_ ?_ ?_ ?_ ?_ ?_ ?_ ?_ ?_ ?_
  · intro x hx; rw [hch]; exact .inr hx
  · rw [ho, hch]; exact h.nodup
  · exact .inl rfl
  · intro x hx _; rwa [hch] at hx
  · simp
  · intro hx
    rw [hch] at hx
    obtain ⟨d, hd, hs⟩ := h.inch i hx
    rw [hi] at hd
    cases hd
    rw [hsent]; exact hs
  · intro hx
    rw [ho] at hx
    obtain ⟨d, hd, hs⟩ := h.inord i hx
    rw [hi] at hd
    cases hd
    rw [hsent, hplc]; exact hs
  · simp
  · rw [pend_set_same hi e3, ho, hf]; exact h.bytes
  · have := gap_set (f := argOf s.log) (c' := c') hi
    rw [hg, hg'] at this
    have := h.offs
    rw [ho, hoff]
    omega
  · rw [e7]; exact h.noErr i c hi
  · rw [e3]; exact hbw
  · intro x hx
    rw [e4] at hx
    rw [ho]
    exact ⟨(h.wdsc i c hi x hx).1, hwds (by rintro hn; rw [hn] at hx; simp at hx)⟩
  · rw [e1, e2]; exact h.len i c hi
  · rw [ho, hplc]; exact h.plc i c hi
  · rw [ho, hch, hsent]; exact h.snt i c hi
  · rw [ho, e1, e2]; exact h.fresh i c hi
  · intro n hn
    rw [hn] at hadd
    simp [isAdd] at hadd
  · exact fun x hx => absurd hx (hnx x)
  · intro hx
    rw [hadd] at hx
    cases hx
  · intro hx hk ha
    rw [ho] at hx ⊢
    rw [e5]
    refine h.place i c hi hx ?_ hadd'
    rw [e6] at hk
    rcases hfast with hfa | ⟨h1, h2⟩
    · rwa [hfa] at hk
    · exact absurd hx (hno h1 h2)
  · intro hd
    rw [ho]
    rcases hdr hd with h1 | h1
    · exact h.drn i c hi h1
    · exact h1
  · intro hd
    rw [ho, hf]
    rcases hfl hd with h1 | h1
    · exact h.fl i c hi h1
    · exact h1

/-- Evaluate the data classes at a known place. -/
macro "fun_pc" : tactic => `(tactic| first
  | rfl
  | (intros; rfl)
  | (simp [sent, placed, gapOf, isAdd, bwPc, ioPc, drained, flq, goto, ioRet]; done)
  | (simp_all [sent, placed, gapOf, isAdd, bwPc, ioPc, drained, flq, goto, ioRet]; done))

/-- A step that changes only the place. -/
macro "t1" h:ident hi:ident : tactic => `(tactic|
  refine invB_pc $h $hi rfl rfl rfl rfl rfl rfl rfl rfl rfl rfl rfl rfl ?_ ?_ ?_ ?_ ?_ ?_ ?_ ?_ ?_ ?_ ?_ ?_ <;> fun_pc)

theorem nil_of_not_bwPc {init : List UInt8} {s : St} {i : Nat} {c : Call} (h : InvB init s) (hi : s.log[i]? = some c) (hp : bwPc c.pc = false) :
    c.bw = [] := by
  refine Classical.byContradiction fun hb => ?_
  rw [h.bwc i c hi hb] at hp
  cases hp

theorem nil_of_not_ioPc {init : List UInt8} {s : St} {i : Nat} {c : Call} (h : InvB init s) (hi : s.log[i]? = some c) (hp : ioPc c.pc = false) :
    c.wds = [] := by
  cases hw : c.wds with
  | nil => rfl
  | cons x xs =>
    rw [(h.wdsc i c hi x (by simp [hw])).2] at hp
    cases hp

/-- Nothing buffered: what is in `order` is in the file. -/
theorem fl_of_file {init file : List UInt8} {f : Nat → List UInt8} {order : List Nat} {i : Nat} (hf : file = init ++ order.flatMap f)
    (hi : i ∈ order) : Fl init.length f order file.length i := by
  obtain ⟨pre, post, rfl⟩ := List.append_of_mem hi
  refine ⟨pre, post, rfl, ?_⟩
  simp only [hf, List.flatMap_append, List.flatMap_cons, List.length_append]
  omega

theorem in_order {init : List UInt8} {s : St} {i : Nat} {c : Call} (h : InvB init s) (hi : s.log[i]? = some c) (hs : sent c = true)
    (hch : s.ch = []) : i ∈ s.order := by
  rcases h.snt i c hi hs with hx | hx
  · exact hx
  · rw [hch] at hx; simp at hx

theorem noAdd {s : St} {i : Nat} {c : Call} (ha : InvA s) (hi : s.log[i]? = some c) (hc : crit c = true) :
    ∀ (j : Nat) (d : Call), j ≠ i → s.log[j]? = some d → isAdd d.pc = false := by
  intro j d hne hj
  cases hd : isAdd d.pc with
  | false => rfl
  | true =>
    refine absurd (cnt_one ha.one hj hi ?_ hc) hne
    unfold crit
    cases hp : d.pc <;> simp_all [isAdd, critPc]

/-- Fields of one call change that no other part refers to. -/
theorem invB_log {init : List UInt8} {s : St} {i : Nat} {c c' : Call} (h : InvB init s) (hi : s.log[i]? = some c)
    (e1 : c'.arg = c.arg) (e3 : c'.bw = c.bw) (e6 : c'.sync = c.sync) (e7 : c'.ioErr = c.ioErr) (e8 : c'.pc = c.pc) (e9 : c'.fast = c.fast)
    (e10 : c'.err = c.err) (hoff : i ∈ s.order → c'.off = c.off) (hlen : c'.data.length = c.data.length) (hdat : i ∉ s.order → c'.data = c.data)
    (hw : ∀ x ∈ c'.wds, x ∈ c.wds) (hd : c'.done = true → c.done = true ∨ Fl init.length (argOf s.log) s.order s.file.length i) :
    InvB init { s with log := s.log.set i c' } := by
  have q1 : sent c' = sent c := by simp only [sent, e8, e9]
  have q2 : placed c' = placed c := by simp only [placed, e8, e9]
  have q3 : drained c' = drained c := by simp only [drained, e8, e9]
  have q4 : ∀ f, gapOf f c' = gapOf f c := fun f => by simp only [gapOf, e8]
  refine invB_set (e := []) (g := []) h hi rfl e1 (by simp) (by simp) ?_ ?_ ?_ ?_ ?_ ?_ ?_ ?_ ?_ ?_ ?_ ?_ ?_ ?_ ?_ ?_ ?_ ?_ ?_ ?_ ?_ ?_ ?_
  · intro x hx; exact .inr hx
  · exact h.nodup
  · exact .inl rfl
  · intro x hx _; exact hx
  · simp
  · intro hx
    obtain ⟨d, hd, hs⟩ := h.inch i hx
    rw [hi] at hd
    cases hd
    rw [q1]; exact hs
  · intro hx
    obtain ⟨d, hd, hs⟩ := h.inord i hx
    rw [hi] at hd
    cases hd
    rw [q1, q2]; exact hs
  · simp
  · rw [pend_set_same hi e3]; exact h.bytes
  · have := gap_set (f := argOf s.log) (c' := c') hi
    rw [q4] at this
    have := h.offs
    simp only
    omega
  · rw [e7]; exact h.noErr i c hi
  · rw [e3, e8]; exact h.bwc i c hi
  · intro x hx
    rw [e8]
    exact h.wdsc i c hi x (hw x hx)
  · rw [e1, hlen]; exact h.len i c hi
  · rw [q2]; exact h.plc i c hi
  · rw [q1]; exact h.snt i c hi
  · intro hx; rw [e1, hdat hx]; exact h.fresh i c hi hx
  · rw [e1, e8]; exact h.addN i c hi
  · rw [e8]; exact h.addX i c hi
  · rw [e8]; exact h.addLast i c hi
  · intro hx hk ha
    rw [hoff hx]
    rw [e6, e9] at hk
    rw [e8] at ha
    exact h.place i c hi hx hk ha
  · rw [q3]; exact h.drn i c hi
  · intro hx
    by_cases hc : flq c = true
    · exact h.fl i c hi hc
    · have h1 : c'.done = true := by
        simp only [flq, q2, e8, e9, e6, Bool.or_eq_true] at hx hc
        rcases hx with (hx | hx) | hx
        · exact hx
        · exact absurd (.inl (.inr hx)) hc
        · exact absurd (.inr hx) hc
      rcases hd h1 with h2 | h2
      · exact absurd (by simp [flq, h2]) hc
      · exact h2

/-- Bytes go from the buffer to the file. -/
theorem invB_bw {init : List UInt8} {s t : St} {i : Nat} {c c' : Call} {pc : Pc} {bw' g : List UInt8} (ha : InvA s) (h : InvB init s)
    (hi : s.log[i]? = some c) (hc' : c' = { c with bw := bw', pc := pc })
    (hl : t.log = s.log.set i c') (ho : t.order = s.order) (hf : t.file = s.file ++ g) (hg : g ++ bw' = c.bw) (hch : t.ch = s.ch)
    (hoff : t.offset = s.offset) (hcr : crit c = true)
    (q1 : sent c' = sent c) (q2 : placed c' = false ∧ placed c = false) (q3 : drained c' = drained c) (q4 : ∀ f, gapOf f c' = gapOf f c)
    (q5 : bw' ≠ [] → bwPc pc = true) (q6 : isAdd pc = false ∧ isAdd c.pc = false) (q7 : flq c' = true → flq c = true)
    (q8 : ioPc pc = true) (q9 : ∀ x, pc = .ioAdd x → x ∈ s.order) : InvB init t := by
  obtain ⟨ho1, ho2⟩ := others ha h hi hcr
  obtain ⟨hff, hoff'⟩ := free_file ha h hi hcr
  have e1 : c'.arg = c.arg := by rw [hc']
  refine invB_set (e := []) (g := g) h hi hl e1 (by simp [ho]) hf ?_ ?_ ?_ ?_ ?_ ?_ ?_ ?_ ?_ ?_ ?_ ?_ ?_ ?_ ?_ ?_ ?_ ?_ ?_ ?_ ?_ ?_ ?_
  · intro x hx; rw [hch]; exact .inr hx
  · rw [ho, hch]; exact h.nodup
  · exact .inl rfl
  · intro x hx _; rwa [hch] at hx
  · simp
  · intro hx
    rw [hch] at hx
    obtain ⟨d, hd, hs⟩ := h.inch i hx
    rw [hi] at hd
    cases hd
    rw [q1]; exact hs
  · intro hx
    rw [ho] at hx
    obtain ⟨d, hd, hs⟩ := h.inord i hx
    rw [hi] at hd
    cases hd
    rw [q1, q2.1, ← q2.2]; exact hs
  · simp
  · rw [pend_single (get_set_self hi) fun j d hne hj => ho1 j d hne (by rwa [get_set_ne hne] at hj), hf, ho, ← hff, ← hg, hc']
    simp
  · have := gap_set (f := argOf s.log) (c' := c') hi
    rw [q4] at this
    have := h.offs
    rw [ho, hoff]
    omega
  · rw [hc']; exact h.noErr i c hi
  · rw [hc']; exact q5
  · intro x hx
    rw [hc'] at hx ⊢
    rw [ho]
    exact ⟨(h.wdsc i c hi x hx).1, q8⟩
  · rw [hc']; exact h.len i c hi
  · rw [q2.1]; simp
  · rw [q1, ho, hch]; exact h.snt i c hi
  · rw [ho, hc']; exact h.fresh i c hi
  · intro n hn
    rw [hc'] at hn
    simp only at hn
    rw [hn] at q6
    simp [isAdd] at q6
  · intro x hx
    rw [hc'] at hx
    rw [ho]
    exact q9 x hx
  · intro hx
    rw [hc'] at hx
    rw [q6.1] at hx
    cases hx
  · intro hx hk _
    rw [ho] at hx ⊢
    rw [hc'] at hk ⊢
    exact h.place i c hi hx hk q6.2
  · rw [q3, ho]; exact h.drn i c hi
  · intro hx
    rw [ho, hf]
    have := (h.fl i c hi (q7 hx)).app [] (len' := (s.file ++ g).length) (by simp)
    simpa using this

/-- The offset catches up with `bw.Write`. -/
theorem invB_off {init : List UInt8} {s t : St} {i : Nat} {c c' : Call} (h : InvB init s)
    (hi : s.log[i]? = some c) (hc' : c' = { c with pc := .ioDec })
    (hl : t.log = s.log.set i c') (ho : t.order = s.order) (hf : t.file = s.file) (hch : t.ch = s.ch)
    (hp : ∃ x, c.pc = .ioAdd x)
    (hof : t.offset + gap (argOf s.log) (s.log.set i c') = s.offset + gap (argOf s.log) s.log) : InvB init t := by
  obtain ⟨y, hp⟩ := hp
  have q1 : sent c' = sent c := by subst hc'; simp only [sent, hp]
  have q2 : placed c' = placed c := by subst hc'; simp only [placed, hp]
  have q3 : drained c' = drained c := by subst hc'; simp only [drained, hp]
  have q4 : flq c' = flq c := by subst hc'; simp only [flq, q2, hp]
  have e1 : c'.arg = c.arg := by rw [hc']
  refine invB_set (e := []) (g := []) h hi hl e1 (by simp [ho]) (by simp [hf]) ?_ ?_ ?_ ?_ ?_ ?_ ?_ ?_ ?_ ?_ ?_ ?_ ?_ ?_ ?_ ?_ ?_ ?_ ?_ ?_ ?_ ?_ ?_
  · intro x hx; rw [hch]; exact .inr hx
  · rw [ho, hch]; exact h.nodup
  · exact .inl rfl
  · intro x hx _; rwa [hch] at hx
  · simp
  · intro hx
    rw [hch] at hx
    obtain ⟨d, hd, hs⟩ := h.inch i hx
    rw [hi] at hd
    cases hd
    rw [q1]; exact hs
  · intro hx
    rw [ho] at hx
    obtain ⟨d, hd, hs⟩ := h.inord i hx
    rw [hi] at hd
    cases hd
    rw [q1, q2]; exact hs
  · simp
  · rw [pend_set_same hi (by rw [hc']), hf, ho]; exact h.bytes
  · rw [ho, hof]; exact h.offs
  · rw [hc']; exact h.noErr i c hi
  · rw [hc']; intro _; rfl
  · intro x hx
    rw [hc'] at hx ⊢
    rw [ho]
    exact ⟨(h.wdsc i c hi x hx).1, rfl⟩
  · rw [hc']; exact h.len i c hi
  · rw [q2, ho]; exact h.plc i c hi
  · rw [q1, ho, hch]; exact h.snt i c hi
  · rw [ho, hc']; exact h.fresh i c hi
  · intro n hn
    rw [hc'] at hn
    cases hn
  · intro x hx
    rw [hc'] at hx
    cases hx
  · intro hx
    rw [hc'] at hx
    cases hx
  · intro hx hk _
    rw [ho] at hx ⊢
    rw [hc'] at hk ⊢
    exact h.place i c hi hx hk (by rw [hp]; rfl)
  · rw [q3, ho]; exact h.drn i c hi
  · rw [q4, ho, hf]; exact h.fl i c hi

/-- The receive, after the offset of the received call is set. -/
theorem invB_recv {init : List UInt8} {s : St} {i x : Nat} {ch : List Nat} {c d : Call} (ha : InvA s) (h : InvB init s)
    (hi : s.log[i]? = some c) (hp : c.pc = .ioRecv) (hch : s.ch = x :: ch) (hd : s.log[x]? = some d) (hoff : d.off = s.offset) :
    InvB init { s with
      ch
      order := s.order ++ [x]
      log := s.log.set i { c with bw := c.bw ++ d.data, wds := if d.sync then x :: c.wds else c.wds, pc := .ioAdd x } } := by
  have hcr : crit c = true := by simp [crit, hp, critPc]
  obtain ⟨ho1, ho2⟩ := others ha h hi hcr
  obtain ⟨hff, hof⟩ := free_file ha h hi hcr
  simp only [gapOf, hp] at hof
  have hnd := h.nodup
  rw [hch] at hnd
  have hxo : x ∉ s.order := fun hx => by
    rw [List.nodup_append] at hnd
    exact hnd.2.2 x hx x (by simp) rfl
  have hda : d.data = argOf s.log x := by
    rw [h.fresh x d hd hxo]
    simp [argOf, hd]
  have hxs : sent d = true := by
    obtain ⟨d', hd', hs⟩ := h.inch x (by simp [hch])
    rw [hd] at hd'
    cases hd'
    exact hs
  have hpl : Place init.length (argOf s.log) (s.order ++ [x]) x s.offset := ⟨s.order, [], rfl, by omega⟩
  have hsub : ∀ y, y ∈ s.order ++ [x] ∨ y ∈ ch ↔ y ∈ s.order ∨ y ∈ s.ch := fun y => by
    rw [hch]; simp only [List.mem_append, List.mem_cons, List.not_mem_nil, or_false]
    constructor
    · rintro ((h | h) | h)
      · exact .inl h
      · exact .inr (.inl h)
      · exact .inr (.inr h)
    · rintro (h | h | h)
      · exact .inl (.inl h)
      · exact .inl (.inr h)
      · exact .inr h
  have hcs : i ∈ s.order ∨ i ∈ s.ch → sent c = true := by
    rintro (hx | hx)
    · obtain ⟨d', hd', hs⟩ := h.inord i hx
      rw [hi] at hd'
      cases hd'
      rcases hs with hs | hs
      · simp [placed, hp] at hs
      · exact hs
    · obtain ⟨d', hd', hs⟩ := h.inch i hx
      rw [hi] at hd'
      cases hd'
      exact hs
  refine invB_set (e := [x]) (g := []) h hi rfl rfl rfl (by simp) ?_ ?_ ?_ ?_ ?_ ?_ ?_ ?_ ?_ ?_ ?_ ?_ ?_ ?_ ?_ ?_ ?_ ?_ ?_ ?_ ?_ ?_ ?_
  · intro y hy; exact (hsub y).2 (.inr hy)
  · simpa using hnd
  · exact .inr (noAdd ha hi hcr)
  · intro y hy _; rw [hch]; exact List.mem_cons_of_mem _ hy
  · intro y hy _; rw [hch]; simp at hy; simp [hy]
  · intro hx
    have := hcs ((hsub i).1 (.inr hx))
    simpa [sent, hp] using this
  · intro hx
    have := hcs ((hsub i).1 (.inl hx))
    exact .inr (by simpa [sent, hp] using this)
  · intro y hy hne d' hd'
    simp at hy
    subst hy
    rw [hd] at hd'
    cases hd'
    rw [hoff]; exact hpl
  · rw [pend_single (get_set_self hi) fun j d hne hj => ho1 j d hne (by rwa [get_set_ne hne] at hj)]
    simp [← List.append_assoc, hff, hda]
  · have := gap_set (f := argOf s.log) (c' := { c with bw := c.bw ++ d.data, wds := if d.sync then x :: c.wds else c.wds, pc := .ioAdd x }) hi
    have := gap_single hi ho2
    simp only [gapOf, hp] at *
    simp only [List.flatMap_append, List.length_append, List.flatMap_cons, List.flatMap_nil, List.append_nil]
    omega
  · exact h.noErr i c hi
  · intro _; rfl
  · intro y hy
    refine ⟨?_, rfl⟩
    have hy' : y ∈ x :: c.wds := by
      simp only at hy
      split at hy
      · exact hy
      · exact List.mem_cons_of_mem _ hy
    rcases List.mem_cons.1 hy' with rfl | hy'
    · simp
    · exact List.mem_append_left _ (h.wdsc i c hi y hy').1
  · exact h.len i c hi
  · intro hx; simp [placed] at hx
  · intro hx
    have hx' : sent c = true := by simpa [sent, hp] using hx
    exact (hsub i).2 (h.snt i c hi hx')
  · intro hx
    exact h.fresh i c hi fun hy => hx (List.mem_append_left _ hy)
  · intro n hn; cases hn
  · intro y hy; cases hy; simp
  · intro hx; cases hx
  · intro hx hk _
    rcases List.mem_append.1 hx with hx | hx
    · exact (h.place i c hi hx hk (by rw [hp]; rfl)).app [x]
    · simp at hx
      subst hx
      rw [hd] at hi
      cases hi
      simp only
      rw [hoff]; exact hpl
  · intro hx; simp [drained] at hx
  · intro hx
    have : flq c = true := by simpa [flq, placed, hp] using hx
    have := (h.fl i c hi this).app [x] (len' := s.file.length) (Nat.le_refl _)
    exact this

theorem invB_step {init : List UInt8} {cap : Nat} {s t : St} {i : Nat} {c : Call} (ha : InvA s) (h : InvB init s) (hi : s.log[i]? = some c)
    (hs : step cap s i c = some t) : InvB init t := by
  have hwf := ha.wf i c hi
  have hwc := ha.wc
  have hio := h.noErr i c hi
  have hbw := nil_of_not_bwPc h hi
  have hwds := nil_of_not_ioPc h hi
  have hff := free_file ha h hi
  have hsq := in_order h hi
  have hlen := h.len i c hi
  have hfresh := h.fresh i c hi
  have hps : ∀ c', c'.bw = c.bw → pend (s.log.set i c') = pend s.log := fun c' hc => pend_set_same hi hc
  obtain ⟨sync, arg, data, fast, pc, off, done, bw, wds, ioErr, err⟩ := c
  simp only at hio
  subst hio
  cases pc <;> simp only [wf, wfPc] at hwf <;> simp only [bwPc, ioPc, true_implies, Bool.true_eq_false, false_implies] at hbw hwds
  case enter =>
    simp only [step, stepEnter, Option.some.injEq] at hs
    simp only [Bool.not_eq_true'] at hwf
    subst hwf hbw hwds
    split at hs <;> subst hs <;> t1 h hi
  case lock =>
    simp only [step, stepLock] at hs
    subst hwf hbw hwds
    split at hs <;> split at hs <;> first | (cases hs; done) | (simp only [Option.some.injEq] at hs; subst hs; t1 h hi)
  case check =>
    simp only [step, Option.some.injEq] at hs
    subst hs hwf hbw hwds
    split <;> t1 h hi
  case write =>
    simp only [step, Option.some.injEq] at hs
    subst hs hwf hbw hwds
    obtain ⟨hf, hof⟩ := hff rfl
    simp only [List.append_nil] at hf
    have hni : i ∉ s.order := fun hx => by
      obtain ⟨d, hd, hq⟩ := h.inord i hx
      rw [hi] at hd
      cases hd
      simp [placed, sent] at hq
    have hnc : i ∉ s.ch := fun hx => by
      obtain ⟨d, hd, hq⟩ := h.inch i hx
      rw [hi] at hd
      cases hd
      simp [sent] at hq
    have hda := h.fresh i _ hi hni
    simp only at hda
    subst hda
    have hai : argOf s.log i = data := by simp [argOf, hi]
    obtain ⟨ho1, ho2⟩ := others ha h hi rfl
    refine invB_set (e := [i]) (g := data) h hi rfl rfl rfl rfl ?_ ?_ ?_ ?_ ?_ ?_ ?_ ?_ ?_ ?_ ?_ ?_ ?_ ?_ ?_ ?_ ?_ ?_ ?_ ?_ ?_ ?_ ?_
    · intro x hx; exact .inr hx
    · have := h.nodup
      simp only [List.append_assoc, List.cons_append, List.nil_append, List.nodup_append, List.nodup_cons] at this ⊢
      refine ⟨this.1, ⟨hnc, this.2.1⟩, ?_⟩
      intro a ha b hb
      rcases List.mem_cons.1 hb with rfl | hb
      · rintro rfl; exact hni ha
      · exact this.2.2 a ha b hb
    · exact .inr (noAdd ha hi rfl)
    · intro x hx _; exact hx
    · intro x hx hne; simp at hx; exact absurd hx hne
    · intro hx; exact absurd hx hnc
    · intro _; exact .inl rfl
    · intro x hx hne; simp at hx; exact absurd hx hne
    · rw [hps, pend_single hi ho1]
      · simp [hf, hai]
      · rfl
    · have := gap_set (f := argOf s.log) (c' := { sync, arg := data, data, fast := true, pc := .add data.length, off, done, bw := [], wds := [], ioErr := false, err }) hi
      have := gap_single hi ho2
      simp only [gapOf] at *
      simp only [List.flatMap_append, List.length_append, List.flatMap_cons, List.flatMap_nil, List.append_nil, hai]
      omega
    · rfl
    · simp
    · simp
    · rfl
    · simp
    · simp
    · simp
    · intro n hn; simp at hn; exact hn.symm
    · simp
    · intro _; exact ⟨s.order, rfl⟩
    · intro _ _ hx; simp [isAdd] at hx
    · simp [drained]
    · intro _
      exact fl_of_file (by simp [hf, hai]) (by simp)
  case add n =>
    simp only [step, Option.some.injEq] at hs
    subst hs hwf hbw hwds
    obtain ⟨hf, hof⟩ := hff rfl
    simp only [gapOf] at hof
    have hin : i ∈ s.order := h.plc i _ hi rfl
    have hn := h.addN i _ hi n rfl
    simp only at hn
    have hfl := h.fl i _ hi (by simp [flq, placed])
    refine invB_set (e := []) (g := []) h hi rfl rfl (by simp) (by simp) ?_ ?_ ?_ ?_ ?_ ?_ ?_ ?_ ?_ ?_ ?_ ?_ ?_ ?_ ?_ ?_ ?_ ?_ ?_ ?_ ?_ ?_ ?_
    · intro x hx; exact .inr hx
    · exact h.nodup
    · exact .inl rfl
    · intro x hx _; exact hx
    · simp
    · intro hx
      have := h.nodup
      rw [List.nodup_append] at this
      exact absurd rfl (this.2.2 i hin i hx)
    · intro _; exact .inl rfl
    · simp
    · rw [hps]; exact h.bytes; rfl
    · have := gap_set (f := argOf s.log) (c' := { sync, arg, data, fast := true, pc := .unlock, off := if sync then s.offset else off, done, bw := [], wds := [], ioErr := false, err }) hi
      have := h.offs
      simp only [gapOf] at *
      omega
    · rfl
    · simp
    · simp
    · exact hlen
    · intro _; exact hin
    · intro _; exact .inl hin
    · intro hx; exact absurd hin hx
    · simp
    · simp
    · simp [isAdd]
    · intro _ hk _
      have hk' : sync = true := by simpa using hk
      obtain ⟨pre, hpre⟩ := h.addLast i _ hi rfl
      refine ⟨pre, [], hpre, ?_⟩
      have hai : argOf s.log i = arg := by simp [argOf, hi]
      rw [hpre] at hof
      simp only [List.flatMap_append, List.length_append, List.flatMap_cons, List.flatMap_nil, List.append_nil, hai] at hof
      simp only [hk', if_true]
      omega
    · intro _; exact hin
    · intro _; exact hfl
  case unlock =>
    simp only [step, stepUnlock, Option.some.injEq] at hs
    subst hbw hwds
    obtain ⟨hf, hof⟩ := hff rfl
    simp only [List.append_nil] at hf
    have hfl : fast = false → Fl init.length (argOf s.log) s.order s.file.length i := fun hx =>
      fl_of_file hf (h.drn i _ hi (by simp [drained, hx]))
    split at hs <;> subst hs <;> cases fast <;> cases sync <;> t1 h hi
  case inc =>
    simp only [step, Option.some.injEq] at hs
    subst hs hbw hwds
    t1 h hi
  case send =>
    simp only [step] at hs
    split at hs
    · simp only [Bool.not_eq_true'] at hwf
      simp only [Option.some.injEq] at hs
      subst hs hbw hwds hwf
      have hni : i ∉ s.order := fun hx => by
        obtain ⟨d, hd, hq⟩ := h.inord i hx
        rw [hi] at hd
        cases hd
        simp [placed, sent] at hq
      have hnc : i ∉ s.ch := fun hx => by
        obtain ⟨d, hd, hq⟩ := h.inch i hx
        rw [hi] at hd
        cases hd
        simp [sent] at hq
      refine invB_set (e := []) (g := []) h hi rfl rfl (by simp [goto]) (by simp [goto]) ?_ ?_ ?_ ?_ ?_ ?_ ?_ ?_ ?_ ?_ ?_ ?_ ?_ ?_ ?_ ?_ ?_ ?_ ?_ ?_ ?_ ?_ ?_
      · intro x hx; exact .inr (by simp [goto, hx])
      · have := h.nodup
        simp only [goto]
        rw [← List.append_assoc, List.nodup_append]
        refine ⟨this, by simp, ?_⟩
        intro a ha b hb
        simp at hb
        subst hb
        rintro rfl
        rcases List.mem_append.1 ha with hx | hx
        · exact hni hx
        · exact hnc hx
      · exact .inl rfl
      · intro x hx hne; simp [goto] at hx; rcases hx with hx | hx
        · exact hx
        · exact absurd hx hne
      · simp
      · simp [sent]
      · simp [sent]
      · simp
      · rw [hps]; exact h.bytes; rfl
      · have := gap_set (f := argOf s.log) (c' := { sync, arg, data, fast := false, pc := .test, off, done, bw := [], wds := [], ioErr := false, err }) hi
        have := h.offs
        simp only [gapOf, goto] at *
        omega
      · rfl
      · simp
      · simp
      · exact hlen
      · simp [placed]
      · intro _; exact .inr (by simp [goto])
      · intro _; exact hfresh hni
      · simp
      · simp
      · simp [isAdd]
      · intro hx; exact absurd hx hni
      · simp [drained]
      · intro hx; exact h.fl i _ hi (by simpa [flq, placed] using hx)
    · cases hs
  case test =>
    simp only [step, Option.some.injEq] at hs
    subst hs hbw hwds
    cases s.ioend <;> cases sync <;> t1 h hi
  case tryLock =>
    simp only [step, stepTryLock, Option.some.injEq] at hs
    subst hbw hwds
    split at hs <;> subst hs <;> cases sync <;> t1 h hi
  case test2 =>
    simp only [Bool.and_eq_true, Bool.not_eq_true'] at hwf
    obtain ⟨rfl, rfl⟩ := hwf
    simp only [step, Option.some.injEq] at hs
    subst hs hbw hwds
    cases s.ioend <;> t1 h hi
  case wait =>
    simp only [Bool.and_eq_true, Bool.not_eq_true'] at hwf
    obtain ⟨rfl, rfl⟩ := hwf
    simp only [step] at hs
    subst hbw hwds
    split at hs
    · simp only [Option.some.injEq] at hs
      subst hs
      t1 h hi
    · cases hs
  case ioEnter =>
    simp only [step, Option.some.injEq] at hs
    subst hs hbw hwds
    split
    · rename_i hw0
      have hch : s.ch = [] := List.eq_nil_of_length_eq_zero (by omega)
      cases fast
      · have hio := hsq rfl hch
        t1 h hi
      · t1 h hi
    · t1 h hi
  case ioSet =>
    simp only [step, Option.some.injEq] at hs
    subst hs hbw hwds
    t1 h hi
  case ioRecv =>
    simp only [step, stepRecv] at hs
    split at hs
    · cases hs
    · rename_i x ch hch
      split at hs
      · cases hs
      · rename_i d hd
        split at hs
        · cases hs
        · rename_i c hc
          simp only [Option.some.injEq] at hs
          subst hs
          have hnd := h.nodup
          rw [hch] at hnd
          have hxo : x ∉ s.order := fun hx => by
            rw [List.nodup_append] at hnd
            exact hnd.2.2 x hx x (by simp) rfl
          have ha' := invA_log (d' := { d with off := s.offset }) ha hd rfl rfl rfl
          have h' := invB_log (c' := { d with off := s.offset }) h hd rfl rfl rfl rfl rfl rfl rfl (fun hx => absurd hx hxo) rfl (fun _ => rfl)
            (fun x hx => hx) (fun hx => .inl hx)
          have hcpc : c.pc = .ioRecv := by
            rcases get_set_cases hc with ⟨rfl, rfl⟩ | ⟨_, hc'⟩
            · rw [hi] at hd; cases hd; rfl
            · rw [hi] at hc'; cases hc'; rfl
          exact invB_recv (d := { d with off := s.offset }) ha' h' hc hcpc hch (get_set_self hd) rfl
  case ioAdd x =>
    simp only [step] at hs
    split at hs
    · cases hs
    · rename_i d hd
      simp only [Option.some.injEq] at hs
      subst hs
      have hax : (argOf s.log x).length = d.data.length := by
        rw [h.len x d hd]
        simp [argOf, hd]
      have hg := gap_set (f := argOf s.log) (c' := { sync, arg, data, fast, pc := .ioDec, off, done, bw, wds, ioErr := false, err }) hi
      have hof := h.offs
      simp only [gapOf, hax] at hg
      refine invB_off h hi rfl rfl rfl rfl rfl ⟨_, rfl⟩ ?_
      simp only [goto]
      omega
  case ioDec =>
    simp only [step, Option.some.injEq] at hs
    subst hs
    have h1 := cnt_pos (p := taken) hi rfl
    split
    · have hch : s.ch = [] := List.eq_nil_of_length_eq_zero (by omega)
      cases fast
      · have hio := hsq rfl hch
        t1 h hi
      · t1 h hi
    · t1 h hi
  case ioEnd =>
    simp only [step, Option.some.injEq] at hs
    subst hs
    t1 h hi
  case ioFlush =>
    simp only [step, Option.some.injEq] at hs
    subst hs
    obtain ⟨hf, hof⟩ := hff rfl
    obtain ⟨ho1, ho2⟩ := others ha h hi rfl
    refine invB_bw (g := bw) (pc := .ioClose) (bw' := []) ha h hi rfl rfl rfl rfl (by simp) rfl rfl rfl ?_ ?_ ?_ ?_ ?_ ?_ ?_ rfl ?_ <;>
      simp [sent, placed, gapOf, isAdd, drained, flq]
  case ioClose =>
    obtain ⟨hf, hof⟩ := hff rfl
    subst hbw
    simp only [List.append_nil] at hf
    simp only [step, stepClose] at hs
    split at hs
    · rename_i wds1 x wds'
      split at hs
      · cases hs
      · rename_i d hd
        split at hs
        · cases hs
        · rename_i c hc
          simp only [Option.some.injEq] at hs
          subst hs
          have hxo := (h.wdsc i _ hi x (by simp)).1
          have h' := invB_log (c' := { d with done := true }) h hd rfl rfl rfl rfl rfl rfl rfl (fun _ => rfl) rfl (fun _ => rfl)
            (fun x hx => hx) (fun _ => .inr (fl_of_file hf hxo))
          have hcw : c.wds = x :: wds' := by
            rcases get_set_cases hc with ⟨rfl, rfl⟩ | ⟨_, hc'⟩
            · rw [hi] at hd; cases hd; rfl
            · rw [hi] at hc'; cases hc'; rfl
          exact invB_log (c' := { c with wds := wds' }) h' hc rfl rfl rfl rfl rfl rfl rfl (fun _ => rfl) rfl (fun _ => rfl)
            (fun y hy => by rw [hcw]; exact List.mem_cons_of_mem _ hy) (fun hx => .inl hx)
    · simp only [Bool.false_and, Bool.false_eq_true, if_false, Option.some.injEq] at hs
      subst hs
      cases fast <;> t1 h hi
  case dec =>
    simp only [step, Option.some.injEq] at hs
    subst hs hbw hwds
    t1 h hi
  case ret => simp [step] at hs

/-! ### Other events -/

theorem argOf_app {log : List Call} {c : Call} {x : Nat} (hx : x < log.length) : argOf (log ++ [c]) x = argOf log x := by
  simp [argOf, List.getElem?_append_left hx]

theorem flatMap_congr {f g : Nat → List UInt8} {l : List Nat} (h : ∀ x ∈ l, f x = g x) : l.flatMap f = l.flatMap g := by
  induction l with
  | nil => rfl
  | cons x xs ih =>
    simp only [List.flatMap_cons]
    rw [h x (by simp), ih fun y hy => h y (by simp [hy])]

theorem Place.congr {n : Nat} {f g : Nat → List UInt8} {order : List Nat} {i off : Nat} (h : Place n f order i off) (hfg : ∀ x ∈ order, f x = g x) :
    Place n g order i off := by
  obtain ⟨pre, post, rfl, h⟩ := h
  refine ⟨pre, post, rfl, ?_⟩
  rw [← flatMap_congr fun x hx => hfg x (by simp [hx])]
  exact h

theorem Fl.congr {n : Nat} {f g : Nat → List UInt8} {order : List Nat} {len i : Nat} (h : Fl n f order len i) (hfg : ∀ x ∈ order, f x = g x) :
    Fl n g order len i := by
  obtain ⟨pre, post, rfl, h⟩ := h
  refine ⟨pre, post, rfl, ?_⟩
  rw [← flatMap_congr fun x hx => hfg x (by simp [hx]), ← hfg i (by simp)]
  exact h

theorem inv_start {init : List UInt8} {s : St} (ha : InvA s) (h : InvB init s) (sync : Bool) (bs : List UInt8) :
    InvA { s with log := s.log ++ [{ sync, arg := bs, data := bs }] } ∧ InvB init { s with log := s.log ++ [{ sync, arg := bs, data := bs }] } := by
  have hA : ∀ x ∈ s.order, argOf s.log x = argOf (s.log ++ [{ sync, arg := bs, data := bs }]) x := fun x hx => by
    obtain ⟨c, hc, _⟩ := h.inord x hx
    rw [argOf_app (List.getElem?_eq_some_iff.1 hc).1]
  have hlt : ∀ x, x ∈ s.order ∨ x ∈ s.ch → x < s.log.length := by
    rintro x (hx | hx)
    · obtain ⟨c, hc, _⟩ := h.inord x hx
      exact (List.getElem?_eq_some_iff.1 hc).1
    · obtain ⟨c, hc, _⟩ := h.inch x hx
      exact (List.getElem?_eq_some_iff.1 hc).1
  have get : ∀ (j : Nat) (d : Call), s.log[j]? = some d → (s.log ++ [{ sync, arg := bs, data := bs }])[j]? = some d := fun j d hj => by
    rw [List.getElem?_append_left (List.getElem?_eq_some_iff.1 hj).1]; exact hj
  constructor
  · refine ⟨?_, ?_, ?_, ?_, ?_, ?_, ?_⟩
    · simp [List.countP_append, active, ha.cc]
    · have := ha.fast; simpa [List.countP_append, fastRun, active] using this
    · simp [List.countP_append, wr, crit, critPc, ha.w]
    · simp [List.countP_append, rd, crit, critPc, ha.r]
    · have := ha.one; simpa [List.countP_append, crit, critPc] using this
    · have := ha.wc; simpa [List.countP_append, sending, taken] using this
    · intro j d hj
      rcases get_app hj with ⟨hj, _⟩ | ⟨_, rfl⟩
      · exact ha.wf j d hj
      · rfl
  · refine ⟨?_, ?_, ?_, ?_, h.nodup, ?_, ?_, ?_, ?_, ?_, ?_, ?_, ?_, ?_, ?_, ?_, ?_, ?_⟩
    · intro j d hj
      rcases get_app hj with ⟨hj, _⟩ | ⟨_, rfl⟩
      · exact h.noErr j d hj
      · rfl
    · intro j d hj
      rcases get_app hj with ⟨hj, _⟩ | ⟨_, rfl⟩
      · exact h.bwc j d hj
      · simp
    · intro j d hj
      rcases get_app hj with ⟨hj, _⟩ | ⟨_, rfl⟩
      · exact h.wdsc j d hj
      · simp
    · intro j d hj
      rcases get_app hj with ⟨hj, _⟩ | ⟨_, rfl⟩
      · exact h.len j d hj
      · rfl
    · intro x hx
      obtain ⟨c, hc, hs⟩ := h.inch x hx
      exact ⟨c, get x c hc, hs⟩
    · intro x hx
      obtain ⟨c, hc, hs⟩ := h.inord x hx
      exact ⟨c, get x c hc, hs⟩
    · intro j d hj
      rcases get_app hj with ⟨hj, _⟩ | ⟨_, rfl⟩
      · exact h.plc j d hj
      · simp [placed]
    · intro j d hj
      rcases get_app hj with ⟨hj, _⟩ | ⟨_, rfl⟩
      · exact h.snt j d hj
      · simp [sent]
    · intro j d hj
      rcases get_app hj with ⟨hj, _⟩ | ⟨_, rfl⟩
      · exact h.fresh j d hj
      · simp
    · rw [← flatMap_congr hA, ← h.bytes]
      simp [pend]
    · rw [← flatMap_congr hA, ← h.offs]
      simp only [gap, List.map_append, List.map_cons, List.map_nil, List.sum_append, List.sum_cons, List.sum_nil]
      have : s.log.map (gapOf (argOf (s.log ++ [{ sync, arg := bs, data := bs }]))) = s.log.map (gapOf (argOf s.log)) := by
        refine List.map_congr_left fun d hd => ?_
        obtain ⟨j, hj⟩ := List.mem_iff_getElem?.1 hd
        simp only [gapOf]
        split
        · rfl
        · rename_i x hx
          rw [hA x (h.addX j d hj x hx)]
        · rfl
      rw [this]
      simp [gapOf]
    · intro j d hj
      rcases get_app hj with ⟨hj, _⟩ | ⟨_, rfl⟩
      · exact h.addN j d hj
      · simp
    · intro j d hj
      rcases get_app hj with ⟨hj, _⟩ | ⟨_, rfl⟩
      · exact h.addX j d hj
      · simp
    · intro j d hj
      rcases get_app hj with ⟨hj, _⟩ | ⟨_, rfl⟩
      · exact h.addLast j d hj
      · simp [isAdd]
    · intro j d hj hx hk hadd
      rcases get_app hj with ⟨hj, _⟩ | ⟨rfl, rfl⟩
      · exact (h.place j d hj hx hk hadd).congr hA
      · have := hlt _ (.inl hx); omega
    · intro j d hj
      rcases get_app hj with ⟨hj, _⟩ | ⟨_, rfl⟩
      · exact h.drn j d hj
      · simp [drained]
    · intro j d hj hx
      rcases get_app hj with ⟨hj, _⟩ | ⟨rfl, rfl⟩
      · exact (h.fl j d hj hx).congr hA
      · simp [flq, placed] at hx

/-- Both invariants are preserved by every clean event. -/
theorem inv_act {init : List UInt8} {cap : Nat} {s t : St} {a : Act} (ha : InvA s) (h : InvB init s) (hc : Clean a)
    (ht : act cap s a = some t) : InvA t ∧ InvB init t := by
  cases a with
  | start sync bs =>
    simp only [act, Option.some.injEq] at ht
    subst ht
    exact inv_start ha h sync bs
  | step i =>
    simp only [act] at ht
    cases hi : s.log[i]? with
    | none => simp [hi] at ht
    | some c =>
      simp only [hi, Option.bind_some] at ht
      exact ⟨invA_step ha hi (h.noErr i c hi) ht, invB_step ha h hi ht⟩
  | timeout i =>
    simp only [act] at ht
    cases hi : s.log[i]? with
    | none => simp [hi] at ht
    | some c =>
      simp only [hi, Option.bind_some] at ht
      split at ht
      · rename_i hp
        simp only [Option.some.injEq] at ht
        subst ht
        have hwf := ha.wf i c hi
        have hbw := nil_of_not_bwPc h hi (by rw [hp]; rfl)
        have hwd := nil_of_not_ioPc h hi (by rw [hp]; rfl)
        have hfl := ha.fast
        have hone := ha.one
        obtain ⟨sync, arg, data, fast, pc, off, done, bw, wds, ioErr, err⟩ := c
        simp only at hp hbw hwd
        subst hp hbw hwd
        simp only [wf, wfPc, Bool.and_eq_true, Bool.not_eq_true'] at hwf
        obtain ⟨rfl, rfl⟩ := hwf
        refine ⟨invA_set ha hi rfl (by fin) (by fin) (by fin) (by fin) (by fin) (by fin) (by fin), ?_⟩
        t1 h hi
      · cases ht
  | spill i k =>
    simp only [act] at ht
    cases hi : s.log[i]? with
    | none => simp [hi] at ht
    | some c =>
      simp only [hi, Option.bind_some, spill] at ht
      split at ht
      · rename_i x hp
        simp only [Option.some.injEq] at ht
        subst ht
        have h' := invA_log (d' := { c with bw := c.bw.drop k }) ha hi rfl rfl rfl
        refine ⟨⟨h'.cc, h'.fast, h'.w, h'.r, h'.one, h'.wc, h'.wf⟩, ?_⟩
        refine invB_bw (g := c.bw.take k) (pc := c.pc) (bw' := c.bw.drop k) ha h hi rfl rfl rfl rfl (by simp) rfl rfl (by simp [crit, hp, critPc])
          rfl ?_ rfl (fun _ => rfl) ?_ ?_ (fun hx => hx) ?_ ?_
        · simp [placed, hp]
        · simp [hp, bwPc]
        · simp [hp, isAdd]
        · simp [hp, ioPc]
        · intro y hy
          exact h.addX i c hi y hy
      · cases ht
  | fail i k => exact hc.elim
  | reuse sync i d =>
    simp only [act] at ht
    cases hi : s.log[i]? with
    | none => simp [hi] at ht
    | some c =>
      simp only [hi, Option.bind_some] at ht
      split at ht
      · rename_i hq
        simp only [Option.some.injEq] at ht
        subst ht
        refine ⟨invA_log ha hi rfl rfl rfl, ?_⟩
        have hfl : flq c = true := by
          simp only [Clean] at hc
          simp only [flq, placed, hq.1, hq.2.1, hc]
          cases c.fast <;> simp
        have hin : i ∈ s.order := by
          obtain ⟨pre, post, ho, _⟩ := h.fl i c hi hfl
          rw [ho]; simp
        exact invB_log (c' := { c with data := d }) h hi rfl rfl rfl rfl rfl rfl rfl (fun _ => rfl) hq.2.2 (fun hx => absurd hin hx)
          (fun x hx => hx) (fun hx => .inl hx)
      · cases ht

theorem inv_exec {init : List UInt8} {cap : Nat} {s t : St} {as : List Act} (ha : InvA s) (h : InvB init s) (hc : ∀ a ∈ as, Clean a)
    (ht : exec cap s as = some t) : InvA t ∧ InvB init t := by
  induction as generalizing s with
  | nil => simp only [exec, Option.some.injEq] at ht; subst ht; exact ⟨ha, h⟩
  | cons a as ih =>
    simp only [exec] at ht
    cases hs : act cap s a with
    | none => simp [hs] at ht
    | some u =>
      simp only [hs, Option.bind_some] at ht
      obtain ⟨h1, h2⟩ := inv_act ha h (hc a (by simp)) hs
      exact ih h1 h2 (fun b hb => hc b (by simp [hb])) ht

/-! ### Order in time -/

/-- `j` comes before `i`. -/
def Bef (l : List Nat) (j i : Nat) : Prop := ∃ p q, l = p ++ i :: q ∧ j ∈ p

/-- In the fast path, with an empty queue seen. -/
def ready (c : Call) : Bool := match c.pc with | .write | .ioEnd | .ioFlush | .ioClose => c.fast | _ => false

theorem split_unique {p1 q1 p2 q2 : List Nat} {i : Nat} (h1 : i ∉ p1) (h2 : i ∉ p2) (h : p1 ++ i :: q1 = p2 ++ i :: q2) : p1 = p2 := by
  induction p1 generalizing p2 with
  | nil =>
    cases p2 with
    | nil => rfl
    | cons y ys =>
      simp only [List.nil_append, List.cons_append, List.cons.injEq] at h
      exact absurd (by simp [h.1]) h2
  | cons x xs ih =>
    cases p2 with
    | nil =>
      simp only [List.nil_append, List.cons_append, List.cons.injEq] at h
      exact absurd (by simp [h.1]) h1
    | cons y ys =>
      simp only [List.cons_append, List.cons.injEq] at h
      rw [h.1, ih (fun hx => h1 (List.mem_cons_of_mem _ hx)) (fun hx => h2 (List.mem_cons_of_mem _ hx)) h.2]

theorem Bef.left {a b : List Nat} {j i : Nat} (hn : (a ++ b).Nodup) (hi : i ∈ a) (h : Bef (a ++ b) j i) : Bef a j i := by
  obtain ⟨p, q, he, hj⟩ := h
  obtain ⟨p1, q1, rfl⟩ := List.append_of_mem hi
  rw [he] at hn
  have h2 : i ∉ p := by
    rw [List.nodup_append] at hn
    exact fun hx => hn.2.2 i hx i (by simp) rfl
  have hn' := hn
  rw [← he] at hn'
  have h1 : i ∉ p1 := by
    rw [List.append_assoc, List.nodup_append] at hn'
    exact fun hx => hn'.2.2 i hx i (by simp) rfl
  have := split_unique h1 h2 (q1 := q1 ++ b) (q2 := q) (by simpa using he)
  subst this
  exact ⟨p1, q1, rfl, hj⟩

/-- How the queue and the order change. -/
theorem flow {cap : Nat} {s t : St} {a : Act} (hc : Clean a) (ht : act cap s a = some t) :
    (t.order ++ t.ch = s.order ++ s.ch ∧ (∀ x ∈ s.order, x ∈ t.order)) ∨
    (∃ i c, s.log[i]? = some c ∧ c.pc = .write ∧ t.order = s.order ++ [i] ∧ t.ch = s.ch) ∨
    (∃ i c, s.log[i]? = some c ∧ c.pc = .send ∧ t.order = s.order ∧ t.ch = s.ch ++ [i]) := by
  have same : t.order = s.order → t.ch = s.ch → (t.order ++ t.ch = s.order ++ s.ch ∧ (∀ x ∈ s.order, x ∈ t.order)) := fun h1 h2 =>
    ⟨by rw [h1, h2], fun x hx => by rw [h1]; exact hx⟩
  cases a with
  | start sync bs => simp only [act, Option.some.injEq] at ht; subst ht; exact .inl (same rfl rfl)
  | fail i k => exact hc.elim
  | timeout i =>
    simp only [act] at ht
    cases hi : s.log[i]? with
    | none => simp [hi] at ht
    | some c =>
      simp only [hi, Option.bind_some] at ht
      split at ht <;> first | (cases ht; done) | (simp only [Option.some.injEq] at ht; subst ht; exact .inl (same rfl rfl))
  | spill i k =>
    simp only [act] at ht
    cases hi : s.log[i]? with
    | none => simp [hi] at ht
    | some c =>
      simp only [hi, Option.bind_some, spill] at ht
      split at ht <;> first | (cases ht; done) | (simp only [Option.some.injEq] at ht; subst ht; exact .inl (same rfl rfl))
  | reuse sync i d =>
    simp only [act] at ht
    cases hi : s.log[i]? with
    | none => simp [hi] at ht
    | some c =>
      simp only [hi, Option.bind_some] at ht
      split at ht <;> first | (cases ht; done) | (simp only [Option.some.injEq] at ht; subst ht; exact .inl (same rfl rfl))
  | step i =>
    simp only [act] at ht
    cases hi : s.log[i]? with
    | none => simp [hi] at ht
    | some c =>
      simp only [hi, Option.bind_some, step] at ht
      split at ht
      case h_4 hp => simp only [Option.some.injEq] at ht; subst ht; exact .inr (.inl ⟨i, c, hi, hp, rfl, rfl⟩)
      case h_8 hp =>
        split at ht
        · simp only [Option.some.injEq] at ht; subst ht; exact .inr (.inr ⟨i, c, hi, hp, rfl, rfl⟩)
        · cases ht
      case h_15 hp =>
        simp only [stepRecv] at ht
        split at ht
        · cases ht
        · rename_i x ch hch
          split at ht
          · cases ht
          · split at ht
            · cases ht
            · simp only [Option.some.injEq] at ht
              subst ht
              exact .inl ⟨by simp [hch], fun y hy => List.mem_append_left _ hy⟩
      all_goals
        first
        | (cases ht; done)
        | (simp only [Option.some.injEq] at ht; subst ht; exact .inl (same rfl rfl))
        | (try simp only [stepEnter, stepLock, stepUnlock, stepTryLock, stepClose, Option.some.injEq] at ht
           repeat' split at ht
           all_goals first | (cases ht; done) | (subst ht; exact .inl (same rfl rfl)) | (simp only [Option.some.injEq] at ht; subst ht; exact .inl (same rfl rfl)))

/-- A call becomes ready only when the queue is empty. -/
theorem ready_step {cap : Nat} {s t : St} {a : Act} (ha : InvA s) (hc : Clean a) (ht : act cap s a = some t) {i : Nat} {d : Call}
    (hd : t.log[i]? = some d) (hr : ready d = true) : (∃ c, s.log[i]? = some c ∧ ready c = true) ∨ s.ch = [] := by
  have keep : ∀ {k : Nat} {c c' : Call}, s.log[k]? = some c → t.log = s.log.set k c' → (ready c' = true → ready c = true ∨ s.ch = []) →
      (∃ c, s.log[i]? = some c ∧ ready c = true) ∨ s.ch = [] := by
    intro k c c' hk hl hw
    rw [hl] at hd
    rcases get_set_cases hd with ⟨rfl, rfl⟩ | ⟨_, hd⟩
    · rcases hw hr with hw | hw
      · exact .inl ⟨c, hk, hw⟩
      · exact .inr hw
    · exact .inl ⟨d, hd, hr⟩
  have hwc := ha.wc
  cases a with
  | start sync bs =>
    simp only [act, Option.some.injEq] at ht
    subst ht
    rcases get_app hd with ⟨hd, _⟩ | ⟨_, rfl⟩
    · exact .inl ⟨d, hd, hr⟩
    · simp [ready] at hr
  | fail i k => exact hc.elim
  | timeout k =>
    simp only [act] at ht
    cases hk : s.log[k]? with
    | none => simp [hk] at ht
    | some c =>
      simp only [hk, Option.bind_some] at ht
      split at ht
      · simp only [Option.some.injEq] at ht; subst ht
        exact keep hk rfl (by simp [ready])
      · cases ht
  | spill k n =>
    simp only [act] at ht
    cases hk : s.log[k]? with
    | none => simp [hk] at ht
    | some c =>
      simp only [hk, Option.bind_some, spill] at ht
      split at ht
      · simp only [Option.some.injEq] at ht; subst ht
        exact keep hk rfl (fun h => .inl h)
      · cases ht
  | reuse sync k e =>
    simp only [act] at ht
    cases hk : s.log[k]? with
    | none => simp [hk] at ht
    | some c =>
      simp only [hk, Option.bind_some] at ht
      split at ht
      · simp only [Option.some.injEq] at ht; subst ht
        exact keep hk rfl (fun h => .inl h)
      · cases ht
  | step k =>
    simp only [act] at ht
    cases hk : s.log[k]? with
    | none => simp [hk] at ht
    | some c =>
      simp only [hk, Option.bind_some] at ht
      obtain ⟨sync, arg, data, fast, pc, off, done, bw, wds, ioErr, err⟩ := c
      cases pc
      case ioRecv =>
        simp only [step, stepRecv] at ht
        split at ht
        · cases ht
        · rename_i x ch hch
          split at ht
          · cases ht
          · rename_i e he
            split at ht
            · cases ht
            · simp only [Option.some.injEq] at ht
              subst ht
              rcases get_set_cases hd with ⟨rfl, rfl⟩ | ⟨_, hd⟩
              · simp [ready] at hr
              · rcases get_set_cases hd with ⟨rfl, rfl⟩ | ⟨_, hd⟩
                · exact .inl ⟨e, he, hr⟩
                · exact .inl ⟨d, hd, hr⟩
      case ioClose =>
        simp only [step, stepClose] at ht
        split at ht
        · split at ht
          · cases ht
          · rename_i e he
            split at ht
            · cases ht
            · rename_i c hc
              simp only [Option.some.injEq] at ht
              subst ht
              have : ∀ {d : Call}, ∀ {x : Nat}, s.log[x]? = some e → (s.log.set x { e with done := true })[i]? = some d → ready d = true →
                  (∃ c, s.log[i]? = some c ∧ ready c = true) ∨ s.ch = [] := by
                intro d x he hd hr
                rcases get_set_cases hd with ⟨rfl, rfl⟩ | ⟨_, hd⟩
                · exact .inl ⟨e, he, hr⟩
                · exact .inl ⟨d, hd, hr⟩
              rcases get_set_cases hd with ⟨rfl, rfl⟩ | ⟨_, hd⟩
              · exact this he hc hr
              · exact this he hd hr
        · split at ht <;> simp only [Option.some.injEq] at ht <;> subst ht
          · exact keep hk rfl (by simp [ready])
          · exact keep hk rfl (by cases fast <;> simp [ready, ioRet])
      case check =>
        simp only [step, Option.some.injEq] at ht
        subst ht
        refine keep hk rfl ?_
        split
        · simp [ready]
        · intro _
          exact .inr (List.eq_nil_of_length_eq_zero (by omega))
      case ioEnter =>
        simp only [step, Option.some.injEq] at ht
        subst ht
        refine keep hk rfl ?_
        split
        · intro _
          exact .inr (List.eq_nil_of_length_eq_zero (by omega))
        · simp [ready]
      case ioDec =>
        have := cnt_pos (p := taken) hk rfl
        simp only [step, Option.some.injEq] at ht
        subst ht
        refine keep hk rfl ?_
        split
        · intro _
          exact .inr (List.eq_nil_of_length_eq_zero (by omega))
        · simp [ready]
      case ioEnd =>
        simp only [step, Option.some.injEq] at ht
        subst ht
        exact keep hk rfl (by cases fast <;> simp [ready])
      case ioFlush =>
        simp only [step, Option.some.injEq] at ht
        subst ht
        exact keep hk rfl (by cases fast <;> simp [ready])
      case test =>
        simp only [step, Option.some.injEq] at ht
        subst ht
        refine keep hk rfl ?_
        cases s.ioend <;> cases sync <;> simp [ready]
      case test2 =>
        simp only [step, Option.some.injEq] at ht
        subst ht
        refine keep hk rfl ?_
        cases s.ioend <;> simp [ready]
      case tryLock =>
        simp only [step, stepTryLock, Option.some.injEq] at ht
        split at ht <;> subst ht <;> refine keep hk rfl ?_ <;> cases sync <;> simp [ready]
      all_goals
        first
        | (cases ht; done)
        | (simp only [step, Option.some.injEq] at ht; subst ht; exact keep hk rfl (by simp [ready]))
        | (simp only [step, stepEnter, stepLock, stepUnlock, Option.some.injEq] at ht
           repeat' split at ht
           all_goals first | (cases ht; done) | (subst ht; exact keep hk rfl (by simp [ready])) | (simp only [Option.some.injEq] at ht; subst ht; exact keep hk rfl (by simp [ready])))

/-- Order in time, relative to a set `R` of calls that had returned when there were `n` calls. -/
structure RInv (R : Nat → Prop) (n : Nat) (s : St) : Prop where
  mem : ∀ j, R j → j ∈ s.order ++ s.ch
  bef : ∀ j i, R j → n ≤ i → i ∈ s.order ++ s.ch → Bef (s.order ++ s.ch) j i
  rdy : ∀ j i c, R j → n ≤ i → s.log[i]? = some c → ready c = true → j ∈ s.order

theorem rinv_act {R : Nat → Prop} {n cap : Nat} {init : List UInt8} {s t : St} {a : Act} (ha : InvA s) (h : InvB init s) (hr : RInv R n s)
    (hc : Clean a) (ht : act cap s a = some t) : RInv R n t := by
  have hsub : ∀ x ∈ s.order, x ∈ t.order := by
    rcases flow hc ht with ⟨_, h2⟩ | ⟨i, c, _, _, ho, _⟩ | ⟨i, c, _, _, ho, _⟩
    · exact h2
    · intro x hx; rw [ho]; exact List.mem_append_left _ hx
    · intro x hx; rw [ho]; exact hx
  have hrd : ∀ j i c, R j → n ≤ i → t.log[i]? = some c → ready c = true → j ∈ t.order := by
    intro j i c hj hi hg hq
    apply hsub
    rcases ready_step ha hc ht hg hq with ⟨c0, hc0, hq0⟩ | hch
    · exact hr.rdy j i c0 hj hi hc0 hq0
    · have := hr.mem j hj
      rwa [hch, List.append_nil] at this
  rcases flow hc ht with ⟨h1, _⟩ | ⟨i, c, hi, hp, ho, hch⟩ | ⟨i, c, hi, hp, ho, hch⟩
  · exact ⟨by rw [h1]; exact hr.mem, by rw [h1]; exact hr.bef, hrd⟩
  · have hfast : ready c = true := by
      have := ha.wf i c hi
      simp only [wf, hp, wfPc] at this
      simp [ready, hp, this]
    have hml : ∀ x, x ∈ s.order ++ s.ch → x ∈ t.order ++ t.ch := fun x hx => by
      rw [ho, hch]
      rcases List.mem_append.1 hx with hx | hx <;> simp [hx]
    refine ⟨fun j hj => hml j (hr.mem j hj), ?_, hrd⟩
    intro j k hj hk hx
    rw [ho, hch] at hx ⊢
    have hji : n ≤ i → j ∈ s.order := fun hni => hr.rdy j i c hj hni hi hfast
    by_cases hki : k = i
    · subst hki
      exact ⟨s.order, s.ch, by simp, hji hk⟩
    · have hx' : k ∈ s.order ++ s.ch := by
        rcases List.mem_append.1 hx with hx | hx
        · rcases List.mem_append.1 hx with hx | hx
          · exact List.mem_append_left _ hx
          · simp at hx; exact absurd hx hki
        · exact List.mem_append_right _ hx
      obtain ⟨p, q, he, hjp⟩ := hr.bef j k hj hk hx'
      rcases List.append_eq_append_iff.1 he with ⟨m, h1, h2⟩ | ⟨m, h1, h2⟩
      · refine ⟨s.order ++ [i] ++ m, q, by rw [h2]; simp, ?_⟩
        rw [h1] at hjp
        rcases List.mem_append.1 hjp with hx | hx <;> simp [hx]
      · cases m with
        | nil =>
          simp only [List.append_nil] at h1
          simp only [List.nil_append] at h2
          exact ⟨p ++ [i], q, by rw [h1, ← h2], by simp [hjp]⟩
        | cons y ys =>
          simp only [List.cons_append, List.cons.injEq] at h2
          exact ⟨p, ys ++ [i] ++ s.ch, by rw [h1, h2.1]; simp, hjp⟩
  · refine ⟨fun j hj => by rw [ho, hch, ← List.append_assoc]; exact List.mem_append_left _ (hr.mem j hj), ?_, hrd⟩
    intro j k hj hk hx
    rw [ho, hch, ← List.append_assoc] at hx ⊢
    rcases List.mem_append.1 hx with hx | hx
    · obtain ⟨p, q, he, hjp⟩ := hr.bef j k hj hk hx
      exact ⟨p, q ++ [i], by rw [he]; simp, hjp⟩
    · simp at hx
      subst hx
      exact ⟨s.order ++ s.ch, [], rfl, hr.mem j hj⟩

theorem rinv_exec {R : Nat → Prop} {n cap : Nat} {init : List UInt8} {s t : St} {as : List Act} (ha : InvA s) (h : InvB init s) (hr : RInv R n s)
    (hc : ∀ a ∈ as, Clean a) (ht : exec cap s as = some t) : RInv R n t := by
  induction as generalizing s with
  | nil => simp only [exec, Option.some.injEq] at ht; subst ht; exact hr
  | cons a as ih =>
    simp only [exec] at ht
    cases hs : act cap s a with
    | none => simp [hs] at ht
    | some u =>
      simp only [hs, Option.bind_some] at ht
      obtain ⟨h1, h2⟩ := inv_act ha h (hc a (by simp)) hs
      exact ih h1 h2 (rinv_act ha h hr (hc a (by simp)) hs) (fun b hb => hc b (by simp [hb])) ht

theorem rinv_init {init : List UInt8} {s : St} (h : InvB init s) :
    RInv (fun j => ∃ c, s.log[j]? = some c ∧ c.pc = .ret) s.log.length s := by
  refine ⟨?_, ?_, ?_⟩
  · rintro j ⟨c, hc, hp⟩
    cases hf : c.fast with
    | true => exact List.mem_append_left _ (h.plc j c hc (by simp [placed, hp, hf]))
    | false =>
      rcases h.snt j c hc (by simp [sent, hp, hf]) with hx | hx
      · exact List.mem_append_left _ hx
      · exact List.mem_append_right _ hx
  · intro j i _ hi hx
    have : i < s.log.length := by
      rcases List.mem_append.1 hx with hx | hx
      · obtain ⟨c, hc, _⟩ := h.inord i hx
        exact (List.getElem?_eq_some_iff.1 hc).1
      · obtain ⟨c, hc, _⟩ := h.inch i hx
        exact (List.getElem?_eq_some_iff.1 hc).1
    omega
  · intro j i c _ hi hc
    have := (List.getElem?_eq_some_iff.1 hc).1
    omega

/-! ### The file only grows; what a returned call knows -/

theorem holds_of_file {init file rest : List UInt8} {f : Nat → List UInt8} {order : List Nat} {i off : Nat}
    (hf : file ++ rest = init ++ order.flatMap f) (hp : Place init.length f order i off) (hn : order.Nodup)
    (hl : Fl init.length f order file.length i) : Spec.Mmap.Holds file off (f i) := by
  obtain ⟨p1, q1, h1, h2⟩ := hp
  obtain ⟨p2, q2, h3, h4⟩ := hl
  have e : p1 = p2 := by
    refine split_unique ?_ ?_ (h1.symm.trans h3)
    · rw [h1, List.nodup_append] at hn
      exact fun hx => hn.2.2 i hx i (by simp) rfl
    · rw [h3, List.nodup_append] at hn
      exact fun hx => hn.2.2 i hx i (by simp) rfl
  subst e
  have hlen : off + (f i).length ≤ file.length := by omega
  have key : ((file ++ rest).drop off).take (f i).length = f i := by
    rw [hf, h1, List.flatMap_append, List.flatMap_cons, ← List.append_assoc, h2]
    have : init.length + (p1.flatMap f).length = (init ++ p1.flatMap f).length := by simp
    rw [this, List.drop_left, List.take_left]
  unfold Spec.Mmap.Holds
  rw [List.drop_append_of_le_length (by omega), List.take_append_of_le_length (by simp; omega)] at key
  exact key

/-- The file only grows. -/
theorem file_grows {cap : Nat} {s t : St} {a : Act} (ht : act cap s a = some t) : ∃ g, t.file = s.file ++ g := by
  have same : t.file = s.file → ∃ g, t.file = s.file ++ g := fun h => ⟨[], by simp [h]⟩
  cases a with
  | start sync bs => simp only [act, Option.some.injEq] at ht; subst ht; exact same rfl
  | fail i k =>
    simp only [act] at ht
    cases hi : s.log[i]? with
    | none => simp [hi] at ht
    | some c =>
      simp only [hi, Option.bind_some, fail] at ht
      split at ht <;> first | (cases ht; done) | (simp only [Option.some.injEq] at ht; subst ht; exact ⟨_, rfl⟩)
  | timeout i =>
    simp only [act] at ht
    cases hi : s.log[i]? with
    | none => simp [hi] at ht
    | some c =>
      simp only [hi, Option.bind_some] at ht
      split at ht <;> first | (cases ht; done) | (simp only [Option.some.injEq] at ht; subst ht; exact same rfl)
  | spill i k =>
    simp only [act] at ht
    cases hi : s.log[i]? with
    | none => simp [hi] at ht
    | some c =>
      simp only [hi, Option.bind_some, spill] at ht
      split at ht <;> first | (cases ht; done) | (simp only [Option.some.injEq] at ht; subst ht; exact ⟨_, rfl⟩)
  | reuse sync i d =>
    simp only [act] at ht
    cases hi : s.log[i]? with
    | none => simp [hi] at ht
    | some c =>
      simp only [hi, Option.bind_some] at ht
      split at ht <;> first | (cases ht; done) | (simp only [Option.some.injEq] at ht; subst ht; exact same rfl)
  | step i =>
    simp only [act] at ht
    cases hi : s.log[i]? with
    | none => simp [hi] at ht
    | some c =>
      simp only [hi, Option.bind_some, step] at ht
      split at ht
      case h_4 hp => simp only [Option.some.injEq] at ht; subst ht; exact ⟨_, rfl⟩
      case h_19 hp => simp only [Option.some.injEq] at ht; subst ht; exact ⟨_, rfl⟩
      all_goals
        first
        | (cases ht; done)
        | (simp only [Option.some.injEq] at ht; subst ht; exact same rfl)
        | (try simp only [stepEnter, stepLock, stepUnlock, stepTryLock, stepRecv, stepClose, Option.some.injEq] at ht
           repeat' split at ht
           all_goals first | (cases ht; done) | (subst ht; exact same rfl) | (simp only [Option.some.injEq] at ht; subst ht; exact same rfl))

/-! ### Two ways to stop for ever -/

/-- The lock is held, and nobody holds it. -/
def Dead (s : St) : Prop := s.w = true ∧ ∀ (i : Nat) (c : Call), s.log[i]? = some c → crit c = false

/-- The queue is full, every unfinished call is on its way to it, and there is one. -/
def Jam (cap : Nat) (s : St) : Prop :=
  cap ≤ s.ch.length ∧ 0 < s.cc ∧ ∀ (i : Nat) (c : Call), s.log[i]? = some c → c.pc = .enter ∨ c.pc = .inc ∨ c.pc = .send ∨ c.pc = .ret

theorem dead_set {s t : St} {i : Nat} {c' : Call} (h : Dead s) (hw : t.w = s.w) (hl : t.log = s.log.set i c') (hc : crit c' = false) : Dead t := by
  refine ⟨by rw [hw]; exact h.1, fun j d hj => ?_⟩
  rw [hl] at hj
  rcases get_set_cases hj with ⟨_, rfl⟩ | ⟨_, hj⟩
  · exact hc
  · exact h.2 j d hj

theorem dead_act {cap : Nat} {s t : St} {a : Act} (h : Dead s) (ht : act cap s a = some t) : Dead t ∧ t.file = s.file := by
  cases a with
  | start sync bs =>
    simp only [act, Option.some.injEq] at ht
    subst ht
    refine ⟨⟨h.1, fun j d hj => ?_⟩, rfl⟩
    rcases get_app hj with ⟨hj, _⟩ | ⟨_, rfl⟩
    · exact h.2 j d hj
    · rfl
  | fail i k =>
    simp only [act] at ht
    cases hi : s.log[i]? with
    | none => simp [hi] at ht
    | some c =>
      have := h.2 i c hi
      simp only [hi, Option.bind_some, fail] at ht
      split at ht <;> first | (cases ht; done) | simp_all [crit, critPc]
  | timeout i =>
    simp only [act] at ht
    cases hi : s.log[i]? with
    | none => simp [hi] at ht
    | some c =>
      simp only [hi, Option.bind_some] at ht
      split at ht
      · simp only [Option.some.injEq] at ht; subst ht; exact ⟨dead_set h rfl rfl rfl, rfl⟩
      · cases ht
  | spill i k =>
    simp only [act] at ht
    cases hi : s.log[i]? with
    | none => simp [hi] at ht
    | some c =>
      have := h.2 i c hi
      simp only [hi, Option.bind_some, spill] at ht
      split at ht <;> first | (cases ht; done) | simp_all [crit, critPc]
  | reuse sync i d =>
    simp only [act] at ht
    cases hi : s.log[i]? with
    | none => simp [hi] at ht
    | some c =>
      simp only [hi, Option.bind_some] at ht
      split at ht
      · simp only [Option.some.injEq] at ht; subst ht
        exact ⟨dead_set h rfl rfl (h.2 i c hi), rfl⟩
      · cases ht
  | step i =>
    simp only [act] at ht
    cases hi : s.log[i]? with
    | none => simp [hi] at ht
    | some c =>
      have hcr := h.2 i c hi
      have hw := h.1
      simp only [hi, Option.bind_some] at ht
      obtain ⟨sync, arg, data, fast, pc, off, done, bw, wds, ioErr, err⟩ := c
      cases pc <;> simp only [crit, critPc, Bool.true_eq_false] at hcr
      case enter =>
        simp only [step, stepEnter, Option.some.injEq] at ht
        split at ht <;> subst ht <;> exact ⟨dead_set h rfl rfl rfl, rfl⟩
      case lock =>
        simp [step, stepLock, hw] at ht
      case inc =>
        simp only [step, Option.some.injEq] at ht
        subst ht; exact ⟨dead_set h rfl rfl rfl, rfl⟩
      case send =>
        simp only [step] at ht
        split at ht
        · simp only [Option.some.injEq] at ht; subst ht; exact ⟨dead_set h rfl rfl rfl, rfl⟩
        · cases ht
      case test =>
        simp only [step, Option.some.injEq] at ht
        subst ht
        refine ⟨dead_set h rfl rfl ?_, rfl⟩
        cases s.ioend <;> cases sync <;> rfl
      case tryLock =>
        simp only [step, stepTryLock, hw, Bool.not_true, Bool.false_and, Bool.false_eq_true, if_false, Option.some.injEq] at ht
        subst ht
        refine ⟨dead_set h rfl rfl ?_, rfl⟩
        cases sync <;> rfl
      case test2 =>
        simp only [step, Option.some.injEq] at ht
        subst ht
        refine ⟨dead_set h rfl rfl ?_, rfl⟩
        cases s.ioend <;> rfl
      case wait =>
        simp only [step] at ht
        split at ht
        · simp only [Option.some.injEq] at ht; subst ht; exact ⟨dead_set h rfl rfl rfl, rfl⟩
        · cases ht
      case dec =>
        simp only [step, Option.some.injEq] at ht
        subst ht; exact ⟨dead_set h rfl rfl rfl, rfl⟩
      case ret => simp [step] at ht

theorem dead_exec {cap : Nat} {s t : St} {as : List Act} (h : Dead s) (ht : exec cap s as = some t) : Dead t ∧ t.file = s.file := by
  induction as generalizing s with
  | nil => simp only [exec, Option.some.injEq] at ht; subst ht; exact ⟨h, rfl⟩
  | cons a as ih =>
    simp only [exec] at ht
    cases hs : act cap s a with
    | none => simp [hs] at ht
    | some u =>
      simp only [hs, Option.bind_some] at ht
      obtain ⟨h1, h2⟩ := dead_act h hs
      obtain ⟨h3, h4⟩ := ih h1 ht
      exact ⟨h3, h4.trans h2⟩

/-- Nobody who had not returned returns. -/
def NoRet (s t : St) : Prop := ∀ (i : Nat) (d : Call), t.log[i]? = some d → d.pc = .ret → ∃ c, s.log[i]? = some c ∧ c.pc = .ret

theorem jam_set {cap : Nat} {s t : St} {i : Nat} {c c' : Call} (h : Jam cap s) (hi : s.log[i]? = some c) (hch : t.ch = s.ch) (hcc : s.cc ≤ t.cc)
    (hl : t.log = s.log.set i c') (hc : c'.pc = .inc ∨ c'.pc = .send ∨ (c'.pc = .ret ∧ c.pc = .ret)) : Jam cap t ∧ NoRet s t := by
  refine ⟨⟨by rw [hch]; exact h.1, by have := h.2.1; omega, fun j d hj => ?_⟩, fun j d hj hp => ?_⟩ <;> rw [hl] at hj
  · rcases get_set_cases hj with ⟨rfl, rfl⟩ | ⟨_, hj⟩
    · rcases hc with hc | hc | hc
      · exact .inr (.inl hc)
      · exact .inr (.inr (.inl hc))
      · exact .inr (.inr (.inr hc.1))
    · exact h.2.2 j d hj
  · rcases get_set_cases hj with ⟨rfl, rfl⟩ | ⟨_, hj⟩
    · rcases hc with hc | hc | hc
      · rw [hp] at hc; cases hc
      · rw [hp] at hc; cases hc
      · exact ⟨c, hi, hc.2⟩
    · exact ⟨d, hj, hp⟩

theorem jam_act {cap : Nat} {s t : St} {a : Act} (h : Jam cap s) (ht : act cap s a = some t) : Jam cap t ∧ NoRet s t ∧ t.file = s.file := by
  cases a with
  | start sync bs =>
    simp only [act, Option.some.injEq] at ht
    subst ht
    refine ⟨⟨h.1, h.2.1, fun j d hj => ?_⟩, fun j d hj hp => ?_, rfl⟩
    · rcases get_app hj with ⟨hj, _⟩ | ⟨_, rfl⟩
      · exact h.2.2 j d hj
      · exact .inl rfl
    · rcases get_app hj with ⟨hj, _⟩ | ⟨_, rfl⟩
      · exact ⟨d, hj, hp⟩
      · cases hp
  | fail i k =>
    simp only [act] at ht
    cases hi : s.log[i]? with
    | none => simp [hi] at ht
    | some c =>
      have := h.2.2 i c hi
      simp only [hi, Option.bind_some, fail] at ht
      rcases this with hp | hp | hp | hp <;> simp [hp] at ht
  | timeout i =>
    simp only [act] at ht
    cases hi : s.log[i]? with
    | none => simp [hi] at ht
    | some c =>
      have := h.2.2 i c hi
      simp only [hi, Option.bind_some] at ht
      rcases this with hp | hp | hp | hp <;> simp [hp] at ht
  | spill i k =>
    simp only [act] at ht
    cases hi : s.log[i]? with
    | none => simp [hi] at ht
    | some c =>
      have := h.2.2 i c hi
      simp only [hi, Option.bind_some, spill] at ht
      rcases this with hp | hp | hp | hp <;> simp [hp] at ht
  | reuse sync i d =>
    simp only [act] at ht
    cases hi : s.log[i]? with
    | none => simp [hi] at ht
    | some c =>
      simp only [hi, Option.bind_some] at ht
      split at ht
      · rename_i hq
        simp only [Option.some.injEq] at ht; subst ht
        obtain ⟨h1, h2⟩ := jam_set (t := { s with log := s.log.set i { c with data := d } }) h hi rfl (Nat.le_refl _) rfl (.inr (.inr ⟨hq.1, hq.1⟩))
        exact ⟨h1, h2, rfl⟩
      · cases ht
  | step i =>
    simp only [act] at ht
    cases hi : s.log[i]? with
    | none => simp [hi] at ht
    | some c =>
      have hcr := h.2.2 i c hi
      simp only [hi, Option.bind_some] at ht
      rcases hcr with hp | hp | hp | hp
      · simp only [step, hp, stepEnter, Option.some.injEq] at ht
        rw [if_neg (by have := h.2.1; omega)] at ht
        subst ht
        obtain ⟨h1, h2⟩ := jam_set (t := { s with cc := s.cc + 1, log := s.log.set i { c with fast := false, pc := .inc } }) h hi rfl (by simp) rfl (.inl rfl)
        exact ⟨h1, h2, rfl⟩
      · simp only [step, hp, Option.some.injEq] at ht
        subst ht
        obtain ⟨h1, h2⟩ := jam_set (t := goto { s with wc := s.wc + 1 } i c .send) h hi rfl (by simp [goto]) rfl (.inr (.inl rfl))
        exact ⟨h1, h2, rfl⟩
      · simp only [step, hp] at ht
        rw [if_neg (by have := h.1; omega)] at ht
        cases ht
      · simp [step, hp] at ht

theorem jam_exec {cap : Nat} {s t : St} {as : List Act} (h : Jam cap s) (ht : exec cap s as = some t) : NoRet s t ∧ t.file = s.file := by
  induction as generalizing s with
  | nil => simp only [exec, Option.some.injEq] at ht; subst ht; exact ⟨fun i d hd hp => ⟨d, hd, hp⟩, rfl⟩
  | cons a as ih =>
    simp only [exec] at ht
    cases hs : act cap s a with
    | none => simp [hs] at ht
    | some u =>
      simp only [hs, Option.bind_some] at ht
      obtain ⟨h1, h2, h3⟩ := jam_act h hs
      obtain ⟨h4, h5⟩ := ih h1 ht
      refine ⟨fun i d hd hp => ?_, h5.trans h3⟩
      obtain ⟨c, hc, hcp⟩ := h4 i d hd hp
      exact h2 i c hc hcp

end Gofer.Fastio
