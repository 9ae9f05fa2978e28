import Verif.Proof.FastioStrand
import Verif.Proof.FastioSeq

/-! # `fastio`: properties C56–C58, C86–C89, C131 -/
namespace Gofer.Props.Fastio
open Gofer.Fastio Gofer.Spec.Mmap Gofer.Count

/-- `s` is reached from a file with contents `init` by an execution without I/O errors in which no caller of `Write` puts
other data into its slice afterwards (see C88, C89). -/
def Reached (cap : Nat) (init : List UInt8) (as : List Act) (s : St) : Prop :=
  (∀ a ∈ as, Clean a) ∧ exec cap (newFile init) as = some s

/-- The payload of call `i`. -/
def payload (s : St) (i : Nat) : List UInt8 := ((s.log[i]?).map (·.arg)).getD []

theorem Reached.inv {cap : Nat} {init : List UInt8} {as : List Act} {s : St} (h : Reached cap init as s) : InvA s ∧ InvB init s :=
  inv_exec (invA_init init) (invB_init init) h.1 h.2

/-- Three calls at the same time: `WriteSync [1]` by the fast path; `WriteSync [2]` and `Write [5, 6]` by the slow path, the
first of them writing both, in two pieces; its caller then uses its slice for something else. -/
def sampleRun : List Act :=
  [.start true [1], .start true [2], .start false [5, 6], .step 0, .step 1, .step 2, .step 0, .step 0, .step 0, .step 0, .step 0, .step 0,
    .step 1, .step 1, .step 2, .step 2, .step 1, .step 1, .step 1, .step 1, .step 1, .step 1, .step 1, .step 1, .spill 1 2, .step 1, .step 1,
    .step 1, .step 1, .step 1, .step 1, .step 1, .step 1, .reuse true 1 [9]]

def sampleSt : St :=
  { file := [7, 1, 2, 5, 6], offset := 5, cc := 1, wc := 0, ioend := true, w := false, r := 0, ch := [], order := [0, 1, 2],
    log := [{ sync := true, arg := [1], data := [1], fast := true, pc := .ret, off := 1 },
      { sync := true, arg := [2], data := [9], pc := .ret, off := 2, done := true },
      { sync := false, arg := [5, 6], data := [5, 6], pc := .test, off := 3 }] }

theorem sample_reached : Reached 4 [7] sampleRun sampleSt := by
  refine ⟨?_, by decide +kernel⟩
  intro a ha
  simp only [sampleRun, List.mem_cons, List.not_mem_nil, or_false] at ha
  rcases ha with h | h | h | h | h | h | h | h | h | h | h | h | h | h | h | h | h | h | h | h | h | h | h | h | h | h | h | h | h | h | h | h | h | h <;>
    subst h <;> first | trivial | rfl

/-! ### C56 -/

/-- C56. When `WriteSync` has returned an offset, the file holds its data there, whatever its caller does with the slice since. -/
theorem C56_offset (cap : Nat) (init : List UInt8) (as : List Act) (s : St) (h : Reached cap init as s) (i : Nat) (c : Call)
    (hi : s.log[i]? = some c) (hs : c.sync = true) (hr : c.pc = .ret) : Holds s.file c.off c.arg := by
  obtain ⟨_, hb⟩ := h.inv
  have hq : flq c = true := by
    simp only [flq, placed, hr, hs]
    cases c.fast <;> simp
  have hfl := hb.fl i c hi hq
  have hin : i ∈ s.order := by
    obtain ⟨pre, post, ho, _⟩ := hfl
    rw [ho]; simp
  have hn := hb.nodup
  rw [List.nodup_append] at hn
  have := holds_of_file hb.bytes (hb.place i c hi hin (.inl hs) (by rw [hr]; rfl)) hn.1 hfl
  have ha : argOf s.log i = c.arg := by simp [argOf, hi]
  rwa [ha] at this

theorem holds_append {f g d : List UInt8} {off : Nat} (h : Holds f off d) : Holds (f ++ g) off d := by
  unfold Holds at *
  have hl : d.length ≤ (f.drop off).length := by
    have := congrArg List.length h
    simp only [List.length_take] at this
    omega
  rcases Nat.lt_or_ge f.length off with hlt | hge
  · rw [List.drop_eq_nil_of_le (by omega)] at hl
    have : d = [] := List.eq_nil_of_length_eq_zero (by simpa using hl)
    simp [this]
  · rw [List.drop_append_of_le_length hge, List.take_append_of_le_length hl]; exact h

/-- C56. And it stays there, even if I/O errors happen later. -/
theorem C56_stays (cap : Nat) (s t : St) (as : List Act) (h : exec cap s as = some t) (off : Nat) (d : List UInt8) (hh : Holds s.file off d) :
    Holds t.file off d := by
  induction as generalizing s with
  | nil => simp only [exec, Option.some.injEq] at h; subst h; exact hh
  | cons a as ih =>
    simp only [exec] at h
    cases hs : act cap s a with
    | none => simp [hs] at h
    | some u =>
      simp only [hs, Option.bind_some] at h
      obtain ⟨g, hg⟩ := file_grows hs
      exact ih u h (by rw [hg]; exact holds_append hh)

example : ∃ c, sampleSt.log[1]? = some c ∧ c.sync = true ∧ c.pc = .ret ∧ c.off = 2 ∧ c.arg = [2] :=
  ⟨{ sync := true, arg := [2], data := [9], pc := .ret, off := 2, done := true }, rfl, rfl, rfl, rfl, rfl⟩

/-! ### C57 -/

/-- C57. At any time the file is a prefix of the initial contents and the payloads of distinct calls, in order; when nobody
holds the lock it is exactly that. -/
theorem C57_atomic (cap : Nat) (init : List UInt8) (as : List Act) (s : St) (h : Reached cap init as s) :
    s.order.Nodup ∧ (∀ x ∈ s.order, x < s.log.length) ∧
    (∃ rest, s.file ++ rest = init ++ s.order.flatMap (payload s)) ∧
    (s.w = false → s.r = 0 → s.file = init ++ s.order.flatMap (payload s)) := by
  obtain ⟨ha, hb⟩ := h.inv
  have hn := hb.nodup
  rw [List.nodup_append] at hn
  have hp : payload s = argOf s.log := rfl
  rw [hp]
  refine ⟨hn.1, fun x hx => ?_, ⟨_, hb.bytes⟩, fun hw hr => ?_⟩
  · obtain ⟨c, hc, _⟩ := hb.inord x hx
    exact (List.getElem?_eq_some_iff.1 hc).1
  · have h1 := ha.w
    have h2 := ha.r
    rw [hw] at h1
    have h3 := crit_cnt s.log
    have h4 : s.log.countP crit = 0 := by simp only [Bool.toNat_false] at h1; omega
    have : pend s.log = [] := pend_nil fun j d hj => by
      refine Classical.byContradiction fun hne => ?_
      have h5 := cnt_pos (p := crit) hj (bwPc_crit (hb.bwc j d hj hne))
      omega
    have hf := hb.bytes
    rwa [this, List.append_nil] at hf

/-- C57. Every `WriteSync` that has returned, and every `Write` that has returned by the fast path, is one of these calls; a
`Write` that has returned is one of them or in the queue, not both. -/
theorem C57_complete (cap : Nat) (init : List UInt8) (as : List Act) (s : St) (h : Reached cap init as s) (i : Nat) (c : Call)
    (hi : s.log[i]? = some c) (hr : c.pc = .ret) :
    ((c.sync = true ∨ c.fast = true) → i ∈ s.order) ∧ (i ∈ s.order ∨ i ∈ s.ch) ∧ ¬ (i ∈ s.order ∧ i ∈ s.ch) := by
  obtain ⟨_, hb⟩ := h.inv
  have hn := hb.nodup
  rw [List.nodup_append] at hn
  refine ⟨fun hk => ?_, ?_, fun hx => hn.2.2 i hx.1 i hx.2 rfl⟩
  · have hq : flq c = true := by
      simp only [flq, placed, hr]
      rcases hk with hk | hk <;> cases hf : c.fast <;> simp_all
    obtain ⟨pre, post, ho, _⟩ := hb.fl i c hi hq
    rw [ho]; simp
  · cases hf : c.fast with
    | true => exact .inl (hb.plc i c hi (by simp [placed, hr, hf]))
    | false => exact hb.snt i c hi (by simp [sent, hr, hf])

example : sampleSt.w = false ∧ sampleSt.r = 0 ∧ sampleSt.file = [7] ++ sampleSt.order.flatMap (payload sampleSt) := by decide +kernel

/-! ### C58 -/

/-- C58, as stated: when no call is in flight, the data of every call is in the file. -/
def C58_claim : Prop := ∀ (cap : Nat) (init : List UInt8) (as : List Act) (s : St), 0 < cap → Reached cap init as s →
  (∀ c ∈ s.log, c.pc = .ret) → ∀ (i : Nat) (c : Call), s.log[i]? = some c → ∃ off, Holds s.file off c.arg

/-- One `Write` returns between the moment the writing call finds the queue empty and the moment it says so. -/
def strandRun : List Act := prelude ++ fillOne 0 ++ List.replicate 5 (.step 1)

def strandSt : St :=
  { file := [1, 2], offset := 2, cc := 0, wc := 1, ioend := true, w := false, r := 0, ch := [2],
    log := [callA, callE .ret [], callB], order := [0, 1] }

theorem strand_exec (cap : Nat) (h : 0 < cap) : exec cap (newFile []) strandRun = some strandSt := by
  obtain ⟨c, rfl⟩ := Nat.exists_eq_succ_of_ne_zero (Nat.ne_of_gt h)
  unfold strandRun
  rw [List.append_assoc, exec_app (prelude_exec c), exec_app (fill_one (c + 1) 0 h)]
  rfl

theorem strand_clean : ∀ a ∈ strandRun, Clean a := by
  intro a ha
  simp [strandRun, prelude, fillOne] at ha
  rcases ha with h | h | h | h | h | h | h | h | h <;> subst h <;> trivial

theorem mem_of_holds {f : List UInt8} {off : Nat} {x : UInt8} (h : Holds f off [x]) : x ∈ f := by
  unfold Holds at h
  have : x ∈ (f.drop off).take [x].length := by rw [h]; simp
  exact List.mem_of_mem_drop (List.mem_of_mem_take this)

/-- C58 is false: that data stays in the queue. -/
theorem C58_claim_false : ¬ C58_claim := by
  intro h
  obtain ⟨off, ho⟩ := h 65536 [] strandRun strandSt (by decide) ⟨strand_clean, strand_exec 65536 (by decide)⟩
    (by decide) 2 callB rfl
  have := mem_of_holds (f := [1, 2]) (x := 3) ho
  revert this
  decide

/-- C58, the exact condition: when no call is in flight and the queue is empty, the file is the initial contents followed by
the payloads of all calls, each once. -/
theorem C58_queue_partial (cap : Nat) (init : List UInt8) (as : List Act) (s : St) (h : Reached cap init as s)
    (hret : ∀ c ∈ s.log, c.pc = .ret) (hch : s.ch = []) :
    s.file = init ++ s.order.flatMap (payload s) ∧ s.order.Nodup ∧ ∀ x, x ∈ s.order ↔ x < s.log.length := by
  obtain ⟨ha, hb⟩ := h.inv
  obtain ⟨h1, h2, _, h4⟩ := C57_atomic cap init as s h
  have hz : ∀ p : Call → Bool, (∀ c, c.pc = .ret → p c = false) → s.log.countP p = 0 := fun p hp =>
    List.countP_eq_zero.2 fun c hc => by simp [hp c (hret c hc)]
  have hw : s.w = false := by
    have := ha.w
    rw [hz wr fun c hc => by simp [wr, crit, critPc, hc]] at this
    cases hs : s.w with
    | false => rfl
    | true => rw [hs] at this; simp at this
  have hr : s.r = 0 := by
    have := ha.r
    rw [hz rd fun c hc => by simp [rd, crit, critPc, hc]] at this
    exact this.symm
  refine ⟨h4 hw hr, h1, fun x => ⟨h2 x, fun hx => ?_⟩⟩
  have hg : s.log[x]? = some s.log[x] := List.getElem?_eq_getElem hx
  have := (C57_complete cap init as s h x _ hg (hret _ (List.getElem_mem hx))).2.1
  rw [hch] at this
  simpa using this

/-- C58, what callers can do: when a `WriteSync` has returned, the data of every call that had returned before it was made is
in the file. Missing: without such a call the data of a `Write` may stay in the queue. -/
theorem C58_sync_partial (cap : Nat) (init : List UInt8) (as bs : List Act) (s t : St) (h : Reached cap init as s)
    (hb : ∀ a ∈ bs, Clean a) (ht : exec cap s bs = some t)
    (j : Nat) (c : Call) (hj : s.log[j]? = some c) (hjr : c.pc = .ret)
    (i : Nat) (d : Call) (hi : t.log[i]? = some d) (hnew : s.log.length ≤ i) (hs : d.sync = true) (hr : d.pc = .ret) :
    ∃ off, Holds t.file off (payload t j) := by
  have ht' : Reached cap init (as ++ bs) t :=
    ⟨fun a ha => (List.mem_append.1 ha).elim (h.1 a) (hb a), by rw [exec_app h.2]; exact ht⟩
  obtain ⟨ha0, hb0⟩ := h.inv
  obtain ⟨_, hb1⟩ := ht'.inv
  have hR := rinv_exec ha0 hb0 (rinv_init hb0) hb ht
  have hin := (C57_complete cap init (as ++ bs) t ht' i d hi hr).1 (.inl hs)
  obtain ⟨p, q, ho, hp⟩ := (hR.bef j i ⟨c, hj, hjr⟩ hnew (List.mem_append_left _ hin)).left hb1.nodup hin
  obtain ⟨p1, p2, rfl⟩ := List.append_of_mem hp
  have hn := hb1.nodup
  rw [List.nodup_append] at hn
  have hq : flq d = true := by
    simp only [flq, placed, hr, hs]
    cases d.fast <;> simp
  obtain ⟨pre, post, ho', hl⟩ := hb1.fl i d hi hq
  have e : pre = p1 ++ j :: p2 := by
    have hn1 := hn.1
    have hn2 := hn.1
    rw [ho, List.nodup_append] at hn1
    rw [ho', List.nodup_append] at hn2
    exact split_unique (fun hx => hn2.2.2 i hx i (by simp) rfl) (fun hx => hn1.2.2 i hx i (by simp) rfl) (ho'.symm.trans ho)
  subst e
  have hpay : payload t = argOf t.log := rfl
  rw [hpay]
  refine ⟨init.length + (p1.flatMap (argOf t.log)).length, ?_⟩
  refine holds_of_file (i := j) hb1.bytes ⟨p1, p2 ++ i :: q, by rw [ho]; simp, rfl⟩ hn.1 ⟨p1, p2 ++ i :: q, by rw [ho]; simp, ?_⟩
  simp only [List.flatMap_append, List.flatMap_cons, List.length_append] at hl
  omega

/-- The stranded data, and a later `WriteSync` that brings it to the file. -/
example : exec 4 (newFile []) (strandRun ++ .start true [8] :: List.replicate 15 (.step 3)) = some
    { file := [1, 2, 3, 8], offset := 4, cc := 0, wc := 0, ioend := true, w := false, r := 0, ch := [], order := [0, 1, 2, 3],
      log := [callA, callE .ret [], { callB with off := 2 },
        { sync := true, arg := [8], data := [8], fast := true, pc := .ret, off := 3 }] } := by decide +kernel

/-! ### C86 -/

/-- C86. A call that had returned before another one was made is in front of it in the file. -/
theorem C86_order (cap : Nat) (init : List UInt8) (as bs : List Act) (s t : St) (h : Reached cap init as s)
    (hb : ∀ a ∈ bs, Clean a) (ht : exec cap s bs = some t)
    (j : Nat) (c : Call) (hj : s.log[j]? = some c) (hjr : c.pc = .ret) (i : Nat) (hnew : s.log.length ≤ i) (hi : i ∈ t.order) :
    ∃ p m q, t.order = p ++ j :: (m ++ i :: q) := by
  have ht' : Reached cap init (as ++ bs) t :=
    ⟨fun a ha => (List.mem_append.1 ha).elim (h.1 a) (hb a), by rw [exec_app h.2]; exact ht⟩
  obtain ⟨ha0, hb0⟩ := h.inv
  obtain ⟨_, hb1⟩ := ht'.inv
  have hR := rinv_exec ha0 hb0 (rinv_init hb0) hb ht
  obtain ⟨p, q, ho, hp⟩ := (hR.bef j i ⟨c, hj, hjr⟩ hnew (List.mem_append_left _ hi)).left hb1.nodup hi
  obtain ⟨p1, p2, rfl⟩ := List.append_of_mem hp
  exact ⟨p1, p2, q, by rw [ho]; simp⟩

/-! ### C87 -/

/-- C87, as stated: a call that has not returned can still return. -/
def C87_claim : Prop := ∀ (cap : Nat) (init : List UInt8) (as : List Act) (s : St), 0 < cap → Reached cap init as s →
  ∀ (i : Nat) (c : Call), s.log[i]? = some c → ∃ bs t d, exec cap s bs = some t ∧ t.log[i]? = some d ∧ d.pc = .ret

/-- C87 is false, for every capacity of the queue: there is an execution after which no call returns any more, and nothing
reaches the file, whatever happens; one call is in flight, and as many payloads as fit are acknowledged and lost. -/
theorem C87_deadlock (cap : Nat) (hcap : 0 < cap) : ∃ as s, Reached cap [] as s ∧ s.ch.length = cap ∧
    (∃ (i : Nat) (c : Call), s.log[i]? = some c ∧ c.pc ≠ .ret) ∧
    ∀ bs t, exec cap s bs = some t → t.file = s.file ∧
      ∀ (i : Nat) (d : Call), t.log[i]? = some d → d.pc = .ret → ∃ c, s.log[i]? = some c ∧ c.pc = .ret := by
  refine ⟨jamRun cap, jamSt cap, ⟨jam_clean cap, jam_run cap hcap⟩, by simp [jamSt], ⟨cap + 2, callZ, ?_, by decide⟩, fun bs t ht => ?_⟩
  · have : (callA :: callE .ret [] :: List.replicate cap callB ++ [callZ])[cap + 2]? = some callZ := get_last _ _ _ (by simp)
    simpa [jamSt] using this
  · obtain ⟨h1, h2⟩ := jam_exec (jam_jam cap) ht
    exact ⟨h2, h1⟩

theorem C87_claim_false : ¬ C87_claim := by
  intro h
  obtain ⟨as, s, hs, _, ⟨i, c, hi, hc⟩, hall⟩ := C87_deadlock 65536 (by decide)
  obtain ⟨bs, t, d, ht, hd, hr⟩ := h 65536 [] as s (by decide) hs i c hi
  obtain ⟨c', hc', hr'⟩ := (hall bs t ht).2 i d hd hr
  rw [hi] at hc'
  cases hc'
  exact hc hr'

/-! ### C88 -/

/-- C88, as stated: a `WriteSync` that returns without error has its data in the file, I/O errors or not. -/
def C88_claim : Prop := ∀ (cap : Nat) (init : List UInt8) (as : List Act) (s : St), 0 < cap → exec cap (newFile init) as = some s →
  ∀ (i : Nat) (c : Call), s.log[i]? = some c → c.sync = true → c.pc = .ret → c.err = false → Holds s.file c.off c.arg

/-- Two `WriteSync` by the slow path; the first writes both, and `Flush` fails. -/
def failRun : List Act :=
  [.start true [1], .start true [2], .start true [5], .step 0, .step 1, .step 2, .step 0, .step 0, .step 0, .step 0, .step 0, .step 0,
    .step 1, .step 1, .step 2, .step 2] ++ List.replicate 11 (.step 1) ++ [.fail 1 0] ++ List.replicate 4 (.step 1) ++ List.replicate 4 (.step 2)

def failSt : St :=
  { file := [1], offset := 3, cc := 0, wc := 0, ioend := true, w := true, r := 0, ch := [], order := [0, 1, 2],
    log := [{ sync := true, arg := [1], data := [1], fast := true, pc := .ret, off := 0 },
      { sync := true, arg := [2], data := [2], pc := .ret, off := 1, done := true, ioErr := true, err := true },
      { sync := true, arg := [5], data := [5], pc := .ret, off := 2, done := true }] }

theorem fail_exec : exec 4 (newFile []) failRun = some failSt := by decide +kernel

/-- C88 is false: only the call that did the writing gets the error. -/
theorem C88_claim_false : ¬ C88_claim := by
  intro h
  have := h 4 [] failRun failSt (by decide) fail_exec 2 _ rfl rfl rfl rfl
  revert this
  unfold Holds
  decide +kernel

/-- C88, what follows: after an error in the slow path the lock stays held, and nothing ever reaches the file again, whatever
happens. -/
theorem C88_dead : exec 4 (newFile []) failRun = some failSt ∧ ∀ bs t, exec 4 failSt bs = some t → t.file = [1] := by
  refine ⟨fail_exec, fun bs t ht => (dead_exec ⟨rfl, ?_⟩ ht).2⟩
  intro i c hc
  have := List.mem_of_getElem? hc
  simp only [failSt, List.mem_cons, List.not_mem_nil, or_false] at this
  rcases this with rfl | rfl | rfl <;> rfl

/-- `bw.Write` fails for the only call in the queue; the next call waits for the lock, and the `Write` after it returns. -/
def lostRun : List Act :=
  [.start true [1], .start true [2], .step 0, .step 1, .step 0, .step 0, .step 0, .step 0, .step 0, .step 0] ++ List.replicate 7 (.step 1) ++
    [.fail 1 0] ++ List.replicate 3 (.step 1) ++ [.start true [3], .step 2, .start false [4]] ++ List.replicate 6 (.step 3)

def lostSt : St :=
  { file := [1], offset := 1, cc := 1, wc := 2, ioend := false, w := true, r := 0, ch := [3], order := [0, 1],
    log := [{ sync := true, arg := [1], data := [1], fast := true, pc := .ret, off := 0 },
      { sync := true, arg := [2], data := [2], pc := .ret, off := 1, done := true, ioErr := true, err := true },
      { sync := true, arg := [3], data := [3], fast := true, pc := .lock },
      { sync := false, arg := [4], data := [4], pc := .ret }] }

/-- C88, a second consequence: `Write` calls after such an error return without error, and their data never reaches the file. -/
theorem C88_lost : ∃ s c, exec 4 (newFile []) lostRun = some s ∧ s.log[3]? = some c ∧ c.sync = false ∧ c.arg = [4] ∧ c.pc = .ret ∧ c.err = false ∧
    ∀ bs t, exec 4 s bs = some t → t.file = [1] := by
  refine ⟨lostSt, { sync := false, arg := [4], data := [4], pc := .ret }, by decide +kernel, rfl, rfl, rfl, rfl, rfl, fun bs t ht => (dead_exec ⟨rfl, ?_⟩ ht).2⟩
  intro i c hc
  have := List.mem_of_getElem? hc
  simp only [lostSt, List.mem_cons, List.not_mem_nil, or_false] at this
  rcases this with rfl | rfl | rfl | rfl <;> rfl

/-- C88, what holds whatever writes fail: a call, sync or not, that took the fast path (no other call was in flight when it began) and
returns without error has its data in the file. Missing: calls of the slow path, and the offset after errors in the slow path. -/
theorem C88_fast_partial (cap : Nat) (init : List UInt8) (as : List Act) (s : St) (h : exec cap (newFile init) as = some s) (i : Nat) (c : Call)
    (hi : s.log[i]? = some c) (hf : c.fast = true) (hr : c.pc = .ret) (he : c.err = false) : ∃ off, Holds s.file off c.arg := by
  have h0 : InvE [] (newFile init) := by intro i c hc; simp [newFile] at hc
  exact (invE_exec h0 h i c hi).2.2.1 (by simp [placed, hr, hf]) he

/-- C88. A call of the fast path whose own write fails returns an error. -/
theorem C88_fast_error (cap : Nat) (as : List Act) (s t u : St) (i k : Nat) (c d : Call) (hc : s.log[i]? = some c) (hw : c.pc = .write)
    (ht : act cap s (.fail i k) = some t) (hu : exec cap t as = some u) (hd : u.log[i]? = some d) : d.err = true := by
  have hl := (List.getElem?_eq_some_iff.1 hc).1
  simp only [act, hc, Option.bind_some, fail, hw, Option.some.injEq] at ht
  refine err_stays (i := i) (c := { c with err := true, pc := .add (c.data.take k).length }) hu ?_ hd rfl
  rw [← ht]
  simp [List.getElem?_set, hl]

/-- C88. A call returns an error only if a write that it did itself failed. -/
theorem C88_error_own (cap : Nat) (init : List UInt8) (as : List Act) (s : St) (h : exec cap (newFile init) as = some s) (i : Nat) (c : Call)
    (hi : s.log[i]? = some c) (he : c.err = true) : ∃ k, Act.fail i k ∈ as := by
  have h0 : InvE [] (newFile init) := by intro i c hc; simp [newFile] at hc
  have := (invE_exec h0 h i c hi).2.2.2 (.inl he)
  simpa using this

/-- C88, offsets: if writes fail in the fast path only (no `bufio` write or flush fails) and no caller of `Write` puts other data into its
slice afterwards, a `WriteSync` that returns without error has its data at its offset, and one that returns an error has a beginning of its
data there. Missing: failing writes of the slow path, after which this is false. -/
theorem C88_offset_partial (cap : Nat) (init : List UInt8) (as : List Act) (s : St) (h : exec cap (newFile init) as = some s)
    (hff : ∀ (pre : List Act) (i k : Nat) (rest : List Act) (u : St) (c : Call), as = pre ++ .fail i k :: rest → exec cap (newFile init) pre = some u →
      u.log[i]? = some c → c.pc = .write)
    (hre : ∀ i d, Act.reuse false i d ∉ as) (i : Nat) (c : Call) (hi : s.log[i]? = some c) (hs : c.sync = true) (hr : c.pc = .ret) :
    ∃ n, Holds s.file c.off (c.arg.take n) ∧ (c.err = false → c.arg.length ≤ n) := by
  obtain ⟨bs, s', hcl, hx, order, hs'⟩ := sim_exec hff hre h
  have hlog : s'.log[i]? = some (cut (failOf as i) c) := by rw [hs']; simp only [cutLog_get, hi, Option.map_some]
  have hh := C56_offset cap init bs s' ⟨hcl, hx⟩ i (cut (failOf as i) c) hlog (by cases failOf as i <;> exact hs) (by cases failOf as i <;> exact hr)
  rw [hs'] at hh
  cases hk : failOf as i with
  | none =>
    rw [hk] at hh
    exact ⟨c.arg.length, by rw [List.take_length]; exact hh, fun _ => Nat.le_refl _⟩
  | some k =>
    rw [hk] at hh
    refine ⟨k, hh, fun he => ?_⟩
    obtain ⟨pre, rest, hp⟩ := List.append_of_mem (failOf_some hk)
    have h' := h
    rw [hp] at h'
    obtain ⟨u, hu, h2⟩ := exec_split h'
    obtain ⟨v, hv, h3⟩ := Option.bind_eq_some_iff.1 h2
    obtain ⟨d, hd, _⟩ := Option.bind_eq_some_iff.1 hv
    have := C88_fast_error cap rest u v s i k d c hd (hff pre i k rest u d hp hu hd) hv h3 hi
    rw [he] at this; cases this

/-- C88, calls that do not overlap, whatever writes fail: a `WriteSync` that returns without error has its data at its offset, and one that
returns an error has a beginning of its data there. -/
theorem C88_sequential (cap : Nat) (init : List UInt8) (as : List Act) (s : St) (h : exec cap (newFile init) as = some s)
    (hq : ∀ (pre : List Act) (sync : Bool) (bs : List UInt8) (rest : List Act) (u : St), as = pre ++ .start sync bs :: rest →
      exec cap (newFile init) pre = some u → ∀ c ∈ u.log, c.pc = .ret)
    (hre : ∀ i d, Act.reuse false i d ∉ as) (i : Nat) (c : Call) (hi : s.log[i]? = some c) (hs : c.sync = true) (hr : c.pc = .ret) :
    ∃ n, Holds s.file c.off (c.arg.take n) ∧ (c.err = false → c.arg.length ≤ n) :=
  C88_offset_partial cap init as s h (seq_fast hq h) hre i c hi hs hr

/-- A write of two bytes that fails after one, then one that succeeds. -/
def seqRun : List Act :=
  [.start true [1, 2], .step 0, .step 0, .step 0, .fail 0 1, .step 0, .step 0, .step 0, .start true [3]] ++ List.replicate 7 (.step 1)

example : ∃ s : St, exec 4 (newFile [7]) seqRun = some s ∧ s.file = [7, 1, 3] ∧
    s.log[0]? = some { sync := true, arg := [1, 2], data := [1, 2], fast := true, pc := .ret, off := 1, err := true } ∧
    s.log[1]? = some { sync := true, arg := [3], data := [3], fast := true, pc := .ret, off := 2 } :=
  ⟨_, rfl, by decide +kernel, by decide +kernel, by decide +kernel⟩

/-- Its calls do not overlap. -/
example : ∀ (pre : List Act) (sync : Bool) (bs : List UInt8) (rest : List Act) (u : St), seqRun = pre ++ .start sync bs :: rest →
    exec 4 (newFile [7]) pre = some u → ∀ c ∈ u.log, c.pc = .ret := by
  intro pre sync bs rest u hp hu
  have h1 : pre = seqRun.take pre.length := by rw [hp]; simp
  have h2 : seqRun[pre.length]? = some (.start sync bs) := by rw [hp]; simp
  have h3 : pre.length < 16 := by
    have : seqRun.length = 16 := rfl
    rw [hp] at this; simp at this; omega
  have h4 : ∀ n < 16, ((seqRun[n]?).map fun a => match a with | .start _ _ => true | _ => false) = some true → n = 0 ∨ n = 8 := by decide +kernel
  rcases h4 _ h3 (by rw [h2]; rfl) with h | h
  · rw [h] at h1
    rw [h1] at hu
    cases hu
    simp [newFile]
  · rw [h] at h1
    rw [h1] at hu
    have h5 : ∀ u, exec 4 (newFile [7]) (seqRun.take 8) = some u → ∀ c ∈ u.log, c.pc = .ret := by
      intro u hu
      cases hu
      decide +kernel
    exact h5 u hu

/-! ### C89 -/

/-- C89, as stated: once a call has returned, its caller may use the slice for something else; the file gets what the slice
held during the call. -/
def C89_claim : Prop := ∀ (cap : Nat) (init : List UInt8) (as : List Act) (s : St), 0 < cap → (∀ i k, Act.fail i k ∉ as) →
  exec cap (newFile init) as = some s → s.w = false → s.r = 0 → s.file = init ++ s.order.flatMap (payload s)

/-- A `Write` returns with its slice in the queue; the slice is used again; a `WriteSync` empties the queue. -/
def reuseRun : List Act := strandRun ++ [.reuse false 2 [9], .start true [8]] ++ List.replicate 15 (.step 3)

/-- C89 is false for `Write`: the file gets what the slice holds later. -/
theorem C89_claim_false : ¬ C89_claim := by
  intro h
  have := h 4 [] reuseRun
    { file := [1, 2, 9, 8], offset := 4, cc := 0, wc := 0, ioend := true, w := false, r := 0, ch := [], order := [0, 1, 2, 3],
      log := [callA, callE .ret [], { callB with off := 2, data := [9] },
        { sync := true, arg := [8], data := [8], fast := true, pc := .ret, off := 3 }] }
    (by decide) (by intro i k hx; simp [reuseRun, strandRun, prelude, fillOne] at hx) (by decide +kernel) rfl rfl
  revert this
  decide +kernel

/-- C89, what holds: the slice of a `WriteSync` may be used again (this is what `Clean` allows). Missing: `Write`. -/
theorem C89_sync_partial (cap : Nat) (init : List UInt8) (as : List Act) (s : St) (h1 : ∀ i k, Act.fail i k ∉ as)
    (h2 : ∀ i d, Act.reuse false i d ∉ as) (h : exec cap (newFile init) as = some s) (hw : s.w = false) (hr : s.r = 0) :
    s.file = init ++ s.order.flatMap (payload s) := by
  refine (C57_atomic cap init as s ⟨fun a ha => ?_, h⟩).2.2.2 hw hr
  cases a with
  | fail i k => exact absurd ha (h1 i k)
  | reuse sync i d =>
    cases sync with
    | true => rfl
    | false => exact absurd ha (h2 i d)
  | _ => trivial

/-! ### C131 -/

/-- C131. The exact window of C58. A `Write` has returned and its data is still in the queue. Then either a call is at work in
the loop of `ioWrite`, which it leaves only with the queue empty; or, at some moment during the `Write` (just before its last
look at `m.ioend`), another call had taken the last element out of the queue and had not yet set `m.ioend` to true. -/
theorem C131_window (cap : Nat) (init : List UInt8) (as : List Act) (s : St) (h : Reached cap init as s) (i : Nat) (c : Call)
    (hi : s.log[i]? = some c) (hr : c.pc = .ret) (hq : i ∈ s.ch) :
    (∃ (k : Nat) (e : Call), s.log[k]? = some e ∧ (e.pc = .ioRecv ∨ (∃ x, e.pc = .ioAdd x) ∨ e.pc = .ioDec)) ∨
    ∃ pre u k d e, pre <+: as ∧ exec cap (newFile init) pre = some u ∧ u.log[i]? = some d ∧ d.pc = .test2 ∧
      k ≠ i ∧ u.log[k]? = some e ∧ e.pc = .ioEnd := by
  obtain ⟨h1, _, h3⟩ := C57_complete cap init as s h i c hi hr
  have hk : ¬ (c.sync = true ∨ c.fast = true) := fun hk => h3 ⟨h1 hk, hq⟩
  have hqc : quit c = true := by
    simp only [quit, hr]
    cases hs : c.sync <;> cases hf : c.fast <;> simp_all
  rcases strand_all h.1 h.2 i c hi hqc hq with ⟨k, e, hk, he⟩ | hw
  · refine .inl ⟨k, e, hk, ?_⟩
    revert he
    cases e.pc <;> simp [loopPc]
  · exact .inr hw

/-- C131. So if no call is in flight and a payload is missing from the file, that window was met. -/
theorem C131_lost (cap : Nat) (init : List UInt8) (as : List Act) (s : St) (h : Reached cap init as s)
    (hret : ∀ c ∈ s.log, c.pc = .ret) (i : Nat) (hi : i < s.log.length) (hlost : i ∉ s.order) :
    ∃ pre u k d e, pre <+: as ∧ exec cap (newFile init) pre = some u ∧ u.log[i]? = some d ∧ d.pc = .test2 ∧
      k ≠ i ∧ u.log[k]? = some e ∧ e.pc = .ioEnd := by
  have hg : s.log[i]? = some s.log[i] := List.getElem?_eq_getElem hi
  have hr := hret _ (List.getElem_mem hi)
  have hq := (C57_complete cap init as s h i _ hg hr).2.1.resolve_left hlost
  rcases C131_window cap init as s h i _ hg hr hq with ⟨k, e, hk, he⟩ | hw
  · have := hret e (List.mem_of_getElem? hk)
    rw [this] at he
    rcases he with he | ⟨_, he⟩ | he <;> cases he
  · exact hw

/-- The stranded call of C58 is such a case. -/
example : ∃ pre u k d e, pre <+: strandRun ∧ exec 4 (newFile []) pre = some u ∧ u.log[2]? = some d ∧ d.pc = .test2 ∧
    k ≠ 2 ∧ u.log[k]? = some e ∧ e.pc = .ioEnd :=
  C131_lost 4 [] strandRun strandSt ⟨strand_clean, strand_exec 4 (by decide)⟩ (by decide) 2 (by decide) (by decide)

end Gofer.Props.Fastio
