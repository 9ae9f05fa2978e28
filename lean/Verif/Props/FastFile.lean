import Verif.Proof.FastFile
/-!
# C135–C140: handles of `fastio` on one file, calls one after another
-/
namespace Gofer.Props.FastFile
open Gofer.FastFile
open Gofer.Spec.FileAt

/-! ## C135: `WriteAt` -/

/-- C135, full statement: `WriteAt(b, off)` on an open handle, however it was made, puts `b` at `off`. -/
def C135_claim : Prop := ∀ (f : List UInt8) (cs : List Call) (s : St) (os : List Out) (h : Nat) (x : Handle) (b : List UInt8) (off : Int),
  run (start f) cs = some (s, os) → s.handles[h]? = some x → x.live = true → 0 ≤ off →
    ∃ t, step s (.writeAt h b off) = some (t, ⟨b.length, [], none⟩) ∧ (b ≠ [] → Put s.file t.file off.toNat b)

/-- On a handle made by `Open` it fails, whatever came before, and the file keeps its contents. -/
theorem C135_open (f : List UInt8) (cs : List Call) (s : St) (os : List Out) (h : Nat) (b : List UInt8) (off : Int)
    (hr : run (start f) cs = some (s, os)) (hc : (created cs)[h]? = some true) :
    step s (.writeAt h b off) = some (s, ⟨0, [], some .appendMode⟩) := by
  obtain ⟨x, hx, ha⟩ := flag_at hr hc
  simp [step, hx, osWriteAt, ha]

theorem C135_claim_false : ¬ C135_claim := by
  intro hc
  obtain ⟨t, ht, _⟩ := hc [1, 2] [.open] ⟨[1, 2], [⟨true, true, 2, 2⟩]⟩ [⟨0, [], none⟩] 0 ⟨true, true, 2, 2⟩ [9] 0
    (by decide +kernel) rfl rfl (by decide)
  have := C135_open [1, 2] [.open] ⟨[1, 2], [⟨true, true, 2, 2⟩]⟩ [⟨0, [], none⟩] 0 [9] 0 (by decide +kernel) rfl
  rw [this] at ht
  simp at ht

/-- On an open handle made by `New` without `O_APPEND` it does what it says. Missing: handles in append mode, among them all that
`Open` makes. -/
theorem C135_new_partial (f : List UInt8) (cs : List Call) (s : St) (os : List Out) (h : Nat) (x : Handle) (b : List UInt8) (off : Int)
    (hr : run (start f) cs = some (s, os)) (hc : (created cs)[h]? = some false) (hx : s.handles[h]? = some x) (hl : x.live = true)
    (ho : 0 ≤ off) :
    ∃ t, step s (.writeAt h b off) = some (t, ⟨b.length, [], none⟩) ∧ t.handles = s.handles ∧ (b ≠ [] → Put s.file t.file off.toNat b) := by
  obtain ⟨y, hy, ha⟩ := flag_at hr hc
  rw [hx] at hy; cases hy
  cases b with
  | nil =>
    have : ¬ off < 0 := by omega
    exact ⟨s, by simp [step, hx, osWriteAt, ha, this], rfl, by simp⟩
  | cons c b =>
    refine ⟨{ s with file := put s.file off.toNat (c :: b) }, ?_, rfl, fun _ => put_put _ _ _⟩
    have : ¬ off < 0 := by omega
    simp [step, hx, osWriteAt, ha, hl, this]

example : run (start [1, 2, 3]) [.new false, .writeAt 0 [9] 1, .writeAt 0 [8] 5, .readAt 0 6 0, .open, .writeAt 1 [7] 0] =
    some (⟨[1, 9, 3, 0, 0, 8], [⟨false, true, 3, 3⟩, ⟨true, true, 6, 6⟩]⟩,
      [⟨0, [], none⟩, ⟨1, [], none⟩, ⟨1, [], none⟩, ⟨6, [1, 9, 3, 0, 0, 8], none⟩, ⟨0, [], none⟩, ⟨0, [], some .appendMode⟩]) := by
  decide +kernel

/-! ## C136: `Read` -/

/-- C136, full statement: the first `Read` on a handle just made by `Open` delivers the beginning of the file. -/
def C136_claim : Prop := ∀ (f : List UInt8) (cs : List Call) (s t : St) (os : List Out) (o : Out) (len : Nat),
  run (start f) (cs ++ [.open]) = some (s, os) → step s (.read (s.handles.length - 1) len) = some (t, o) → o.data = s.file.take len

theorem C136_claim_false : ¬ C136_claim := by
  intro hc
  have := hc [1] [] ⟨[1], [⟨true, true, 1, 1⟩]⟩ ⟨[1], [⟨true, true, 1, 1⟩]⟩ [⟨0, [], none⟩] ⟨0, [], some .eof⟩ 1
    (by decide +kernel) (by decide +kernel)
  simp at this

/-- A handle made by `Open` whose file is used through no other: `Read` never delivers anything, whatever is written. -/
theorem C136_eof (f : List UInt8) (cs : List Call) (s : St) (os : List Out) (len : Nat) (hlen : 0 < len)
    (hr : run (start f) (.open :: cs) = some (s, os)) (ht : ∀ c ∈ cs, target c = some 0) :
    ∃ e, (e = .eof ∨ e = .closed) ∧ step s (.read 0 len) = some (s, ⟨0, [], some e⟩) := by
  obtain ⟨s', o1, o2, h1, h2, _⟩ := run_cons hr
  simp only [step, Option.some.injEq, Prod.mk.injEq] at h1
  obtain ⟨rfl, _⟩ := h1
  have hw : ∀ x : Handle, ∀ (d : List UInt8) (off : Int) (g : List UInt8), x.append = true → osWriteAt g x d off = (g, 0, some .appendMode) := by
    intro x d off g ha; simp [osWriteAt, ha]
  have key : ∀ (s t : St) (cs : List Call) (o : List Out), AtEnd s → AllAppend s → (∀ c ∈ cs, target c = some 0) →
      run s cs = some (t, o) → AtEnd t := by
    intro s t cs
    induction cs generalizing s with
    | nil => intro o h _ _ hr; simp only [run, Option.some.injEq, Prod.mk.injEq] at hr; obtain ⟨rfl, rfl⟩ := hr; exact h
    | cons c cs ih =>
      intro o he ha ht hr
      obtain ⟨s', o1, o2, h1, h2, rfl⟩ := run_cons hr
      have htc := ht c (by simp)
      refine ih s' o2 ?_ (step_allAppend ha (by rw [created_target htc]; simp) h1) (fun c h => ht c (by simp [h])) h2
      by_cases hc : ∃ h bs off, c = .writeAt h bs off
      · obtain ⟨h, bs, off, rfl⟩ := hc
        simp only [step, Option.bind_eq_bind, Option.bind_eq_some_iff, Option.pure_def, Option.some.injEq, Prod.mk.injEq] at h1
        obtain ⟨x, hx, rfl, rfl⟩ := h1
        rw [hw x _ _ _ (ha x (mem_handles hx))]
        exact he
      · exact step_atEnd he ⟨htc, fun h bs off e => absurd ⟨h, bs, off, e⟩ hc⟩ h1
  obtain ⟨x, hh, hp, ho⟩ := key _ s cs o2 ⟨_, rfl, rfl, rfl⟩ (by simp [AllAppend, start, fresh]) ht h2
  obtain ⟨g, hs⟩ := s
  simp only at hh hp
  subst hh
  cases hl : x.live
  · refine ⟨.closed, Or.inr rfl, ?_⟩
    cases x; simp only at hl; subst hl
    simp [step, osRead]
  · refine ⟨.eof, Or.inl rfl, ?_⟩
    cases x; simp only at hl hp; subst hl hp
    simp [step, osRead, hlen]

/-- What `Read` delivers in general: the bytes that others appended since the handle was made, or since it last wrote something or
read to the end. Missing from the full statement: all bytes before. -/
theorem C136_others_partial (f : List UInt8) (cs ds : List Call) (s t : St) (os os' : List Out) (h len : Nat) (hlen : 0 < len)
    (hcr : ∀ a ∈ created (cs ++ ds), a = true) (hr : run (start f) cs = some (s, os)) (hd : run s ds = some (t, os'))
    (hlast : (∃ x, s.handles[h]? = some x ∧ x.live = true ∧ x.pos = s.file.length))
    (hds : ∀ c ∈ ds, target c ≠ some h) :
    ∃ u g, t.file = s.file ++ g ∧
      step t (.read h len) = some (u, ⟨(g.take len).length, g.take len, if g = [] then some .eof else none⟩) ∧ u.file = t.file := by
  have hcr1 : ∀ a ∈ created cs, a = true := fun a ha => hcr a (by rw [created_append]; simp [ha])
  have hcr2 : ∀ a ∈ created ds, a = true := fun a ha => hcr a (by rw [created_append]; simp [ha])
  obtain ⟨g, hg⟩ := run_grows (start_allAppend hr hcr1) hcr2 hd
  obtain ⟨x, hx, hl, hp⟩ := hlast
  have hxt : t.handles[h]? = some x := by
    refine run_inv (I := fun s => s.handles[h]? = some x) (P := fun c => target c ≠ some h) ?_ hd hx hds
    intro s c t o hi hc hs
    have hlt : h < s.handles.length := (List.getElem?_eq_some_iff.mp hi).1
    rcases ht : target c with _ | i
    · obtain ⟨a, _, rfl⟩ := step_new hs ht
      simp [List.getElem?_append_left hlt, hi]
    · obtain ⟨y, z, hy, _, e⟩ := step_handle hs ht
      have : i ≠ h := by intro e; subst e; exact hc ht
      rw [e, List.getElem?_set_ne this]; exact hi
  have hdrop : List.drop x.pos t.file = g := by rw [hp, hg]; simp
  refine ⟨{ t with handles := t.handles.set h { x with pos := x.pos + (g.take len).length } }, g, hg, ?_, rfl⟩
  · simp only [step, hxt, osRead, hl, hdrop, Option.bind_eq_bind, Option.bind_some, Option.pure_def, Option.some.injEq, Prod.mk.injEq]
    refine ⟨rfl, ?_⟩
    cases g with
    | nil => simp [hlen]
    | cons b g =>
      obtain ⟨k, rfl⟩ : ∃ k, len = k + 1 := ⟨len - 1, by omega⟩
      simp

/-- The position of a handle made by `Open` is at the end of the file when it is made, and after it wrote something. -/
theorem C136_position (f : List UInt8) (cs : List Call) (s t : St) (os : List Out) (h : Nat) (b : List UInt8) (hb : b ≠ [])
    (hr : run (start f) cs = some (s, os)) (c : Call) (o : Out)
    (hc : (c = .open ∧ h = s.handles.length) ∨
      ((c = .write h b ∨ c = .writeSync h b) ∧ (created cs)[h]? = some true ∧ o.err = none)) (hs : step s c = some (t, o)) :
    ∃ x, t.handles[h]? = some x ∧ x.live = true ∧ x.pos = t.file.length := by
  rcases hc with ⟨rfl, rfl⟩ | ⟨hc, hcr, he⟩
  · simp only [step, Option.some.injEq, Prod.mk.injEq] at hs
    obtain ⟨rfl, _⟩ := hs
    exact ⟨_, by simp; rfl, rfl, rfl⟩
  · obtain ⟨x, hx, ha⟩ := flag_at hr hcr
    have hlt : h < s.handles.length := (List.getElem?_eq_some_iff.mp hx).1
    rcases hc with rfl | rfl <;>
      simp only [step, hx, Option.bind_eq_bind, Option.bind_some, Option.pure_def, Option.some.injEq, Prod.mk.injEq] at hs <;>
      obtain ⟨rfl, rfl⟩ := hs <;>
      (cases hl : x.live
       · rw [osWrite_closed hl] at he; cases he
       · obtain ⟨p, e, hp⟩ := osWrite_append (f := s.file) (d := b) ha hl
         simp only [e, hp hb]
         exact ⟨_, List.getElem?_set_self hlt, rfl, by simp⟩)

/-- A log of one's own cannot be read back with `Read`; what another handle adds can. -/
example : run (start [1, 2]) [.open, .writeSync 0 [3], .read 0 4, .open, .write 1 [4, 5], .read 0 4, .read 1 4] =
    some (⟨[1, 2, 3, 4, 5], [⟨true, true, 5, 3⟩, ⟨true, true, 5, 5⟩]⟩,
      [⟨0, [], none⟩, ⟨2, [], none⟩, ⟨0, [], some .eof⟩, ⟨0, [], none⟩, ⟨2, [], none⟩, ⟨2, [4, 5], none⟩, ⟨0, [], some .eof⟩]) := by
  decide +kernel

/-! ## C137: offsets with several handles on a file -/

/-- C137, full statement: the offset `WriteSync` returns is where its data is, also if the file is open through other handles. -/
def C137_claim : Prop := ∀ (f : List UInt8) (cs : List Call) (s t : St) (os : List Out) (h : Nat) (b : List UInt8) (o : Out),
  (∀ a ∈ created cs, a = true) → run (start f) cs = some (s, os) → step s (.writeSync h b) = some (t, o) → o.err = none →
    Holds t.file o.n b

theorem C137_claim_false : ¬ C137_claim := by
  intro hc
  have := hc [] [.open, .open, .write 0 [1]] ⟨[1], [⟨true, true, 1, 1⟩, ⟨true, true, 0, 0⟩]⟩
    ⟨[1, 2], [⟨true, true, 1, 1⟩, ⟨true, true, 2, 1⟩]⟩ [⟨0, [], none⟩, ⟨0, [], none⟩, ⟨1, [], none⟩] 1 [2] ⟨0, [], none⟩
    (by decide) (by decide +kernel) (by decide +kernel) rfl
  obtain ⟨a, b, e, l⟩ := this
  have : a = [] := by simpa using l
  subst this
  simp at e

/-- Exactly: handle `h` was opened when the file had the contents `s.file`; since then `own` bytes were given to its writes and
`all` bytes to those of all handles. `WriteSync` returns the size at opening plus `own`; the data is at that size plus `all`. -/
theorem C137_exact_partial (f : List UInt8) (pre cs : List Call) (s s1 t u : St) (os o1 o2 : List Out) (b : List UInt8) (o : Out)
    (hcr : ∀ a ∈ created (pre ++ cs), a = true) (hcl : ∀ c ∈ pre ++ cs, notClose c = true)
    (hr : run (start f) pre = some (s, os)) (ho : run s [.open] = some (s1, o1)) (hd : run s1 cs = some (t, o2))
    (hw : step t (.writeSync s.handles.length b) = some (u, o)) :
    o.err = none ∧ o.n = s.file.length + written (fun i => i == s.handles.length) cs ∧
      u.file = t.file ++ b ∧ t.file.length = s.file.length + written (fun _ => true) cs := by
  have hcr1 : ∀ a ∈ created pre, a = true := fun a ha => hcr a (by rw [created_append]; simp [ha])
  have hcr2 : ∀ a ∈ created cs, a = true := fun a ha => hcr a (by rw [created_append]; simp [ha])
  have hcl1 : ∀ c ∈ pre, notClose c = true := fun c hc => hcl c (by simp [hc])
  have hcl2 : ∀ c ∈ cs, notClose c = true := fun c hc => hcl c (by simp [hc])
  have ha := start_allAppend hr hcr1
  have hl : AllLive s := run_allLive (s := start f) (by simp [AllLive, start]) hcl1 hr
  obtain ⟨s', o3, o4, h1, h2, _⟩ := run_cons ho
  simp only [run, Option.some.injEq, Prod.mk.injEq] at h2
  obtain ⟨rfl, _⟩ := h2
  have ha1 := step_allAppend ha (by simp [created]) h1
  have hl1 := step_allLive hl rfl h1
  simp only [step, Option.some.injEq, Prod.mk.injEq] at h1
  obtain ⟨rfl, _⟩ := h1
  obtain ⟨hat, hlt, e1, y, hy, e2⟩ := run_sizes (h := s.handles.length) (x := fresh s.file true) ha1 hl1 hcr2 hcl2 hd (by simp)
  simp only [step, hy, Option.bind_eq_bind, Option.bind_some, Option.pure_def, Option.some.injEq, Prod.mk.injEq] at hw
  obtain ⟨rfl, rfl⟩ := hw
  obtain ⟨p, e, _⟩ := osWrite_append (f := t.file) (d := b) (hat y (mem_handles hy)) (hlt y (mem_handles hy))
  simp only [e]
  exact ⟨trivial, e2, trivial, e1⟩

/-- If no other handle writes anything, the offset is right. -/
theorem C137_alone_partial (f : List UInt8) (pre cs : List Call) (s s1 t u : St) (os o1 o2 : List Out) (b : List UInt8) (o : Out)
    (hcr : ∀ a ∈ created (pre ++ cs), a = true) (hf : ∀ c ∈ cs, foreignWrite s.handles.length c = false)
    (hr : run (start f) pre = some (s, os)) (ho : run s [.open] = some (s1, o1)) (hd : run s1 cs = some (t, o2))
    (hw : step t (.writeSync s.handles.length b) = some (u, o)) (he : o.err = none) : Holds u.file o.n b := by
  have hcr1 : ∀ a ∈ created pre, a = true := fun a ha => hcr a (by rw [created_append]; simp [ha])
  have hcr2 : ∀ a ∈ created cs, a = true := fun a ha => hcr a (by rw [created_append]; simp [ha])
  have ha := start_allAppend hr hcr1
  obtain ⟨s', o3, o4, h1, h2, _⟩ := run_cons ho
  simp only [run, Option.some.injEq, Prod.mk.injEq] at h2
  obtain ⟨rfl, _⟩ := h2
  have ha1 := step_allAppend ha (by simp [created]) h1
  simp only [step, Option.some.injEq, Prod.mk.injEq] at h1
  obtain ⟨rfl, _⟩ := h1
  obtain ⟨y, hy, e2⟩ := run_counted ha1 hcr2 ⟨fresh s.file true, by simp, rfl⟩ hf hd
  have hall : AllAppend t := by
    rw [allAppend_iff, run_flags hd]
    intro a h
    rcases List.mem_append.mp h with h | h
    · exact allAppend_iff.mp ha1 a h
    · exact hcr2 a h
  simp only [step, hy, Option.bind_eq_bind, Option.bind_some, Option.pure_def, Option.some.injEq, Prod.mk.injEq] at hw
  obtain ⟨rfl, rfl⟩ := hw
  cases hl : y.live
  · rw [osWrite_closed hl] at he; cases he
  · obtain ⟨p, e, _⟩ := osWrite_append (f := t.file) (d := b) (hall y (mem_handles hy)) hl
    simp only [e]
    exact ⟨t.file, [], by simp, e2.symm⟩

/-- The second handle is off by the three bytes of the first. -/
example : run (start [7]) [.open, .open, .write 0 [1, 2, 3], .writeSync 1 [9], .readAt 1 1 1] =
    some (⟨[7, 1, 2, 3, 9], [⟨true, true, 4, 4⟩, ⟨true, true, 5, 2⟩]⟩,
      [⟨0, [], none⟩, ⟨0, [], none⟩, ⟨3, [], none⟩, ⟨1, [], none⟩, ⟨1, [1], none⟩]) := by decide +kernel

/-! ## C138: `WriteSync` and `ReadAt` -/

/-- What is in the file at `off` is what `ReadAt` delivers, now and after any further calls (of append-mode handles). -/
theorem C138_readAt (f : List UInt8) (cs ds : List Call) (s t : St) (os os' : List Out) (off h : Nat) (b : List UInt8) (x : Handle)
    (hcr : ∀ a ∈ created (cs ++ ds), a = true) (hr : run (start f) cs = some (s, os)) (hb : Holds s.file off b)
    (hd : run s ds = some (t, os')) (hx : t.handles[h]? = some x) (hl : x.live = true) :
    step t (.readAt h b.length off) = some (t, ⟨b.length, b, none⟩) := by
  have hcr1 : ∀ a ∈ created cs, a = true := fun a ha => hcr a (by rw [created_append]; simp [ha])
  have hcr2 : ∀ a ∈ created ds, a = true := fun a ha => hcr a (by rw [created_append]; simp [ha])
  obtain ⟨g, hg⟩ := run_grows (start_allAppend hr hcr1) hcr2 hd
  have hh := holds_read (holds_grow (g := g) hb)
  rw [← hg] at hh
  have hn : ¬ ((off : Int) < 0) := by omega
  by_cases hz : b.length = 0
  · have : b = [] := List.eq_nil_of_length_eq_zero hz
    subst this
    simp [step, hx, osReadAt, hn]
  · simp [step, hx, osReadAt, hn, hl, hh, hz]

/-- Written through a handle that is the only one to write, read back through any open handle at any later time. -/
theorem C138_roundtrip (f : List UInt8) (cs ds : List Call) (s s1 t : St) (os os' : List Out) (h : Nat) (b : List UInt8) (o : Out) (x : Handle)
    (hcr : ∀ a ∈ created (cs ++ ds), a = true)
    (hr : run (start f) (.open :: cs) = some (s, os)) (hf : ∀ c ∈ cs, foreignWrite 0 c = false)
    (hw : step s (.writeSync 0 b) = some (s1, o)) (he : o.err = none)
    (hd : run s1 ds = some (t, os')) (hx : t.handles[h]? = some x) (hl : x.live = true) :
    step t (.readAt h b.length o.n) = some (t, ⟨b.length, b, none⟩) := by
  obtain ⟨s', o1, o2, h1, h2, _⟩ := run_cons hr
  have hcr1 : ∀ a ∈ created cs, a = true := fun a ha => hcr a (by rw [created_append]; simp [ha])
  have hh := C137_alone_partial f [] cs (start f) s' s s1 [] [o1] o2 b o (by simpa using hcr1) hf rfl
    (by simp [run, h1]) h2 hw he
  have hr1 : run (start f) ((.open :: cs) ++ [.writeSync 0 b]) = some (s1, os ++ [o]) := run_append hr (by simp [run, hw])
  refine C138_readAt f ((.open :: cs) ++ [.writeSync 0 b]) ds s1 t _ os' o.n h b x ?_ hr1 hh hd hx hl
  intro a ha
  simp only [created_append, created, List.cons_append, List.append_nil, List.mem_cons, List.mem_append] at ha
  rcases ha with rfl | ha | ha
  · rfl
  · exact hcr a (by rw [created_append]; simp [ha])
  · exact hcr a (by rw [created_append]; simp [ha])

/-- Past the end there is `io.EOF`, with the bytes up to it. -/
theorem C138_past_end (s : St) (h len off : Nat) (x : Handle) (hx : s.handles[h]? = some x) (hl : x.live = true)
    (hp : s.file.length < off + len) (hlen : 0 < len) :
    step s (.readAt h len off) = some (s, ⟨s.file.length - off, s.file.drop off, some .eof⟩) := by
  have hn : ¬ ((off : Int) < 0) := by omega
  have hz : len ≠ 0 := by omega
  have ht : (s.file.drop off).take len = s.file.drop off := List.take_of_length_le (by simp; omega)
  simp [step, hx, osReadAt, hn, hl, hz, ht]
  omega

example : run (start [7]) [.open, .write 0 [1, 2], .writeSync 0 [3, 4, 5], .open, .write 1 [6], .close 0, .readAt 1 3 3, .readAt 1 9 5] =
    some (⟨[7, 1, 2, 3, 4, 5, 6], [⟨true, false, 6, 6⟩, ⟨true, true, 7, 7⟩]⟩,
      [⟨0, [], none⟩, ⟨2, [], none⟩, ⟨3, [], none⟩, ⟨0, [], none⟩, ⟨1, [], none⟩, ⟨0, [], none⟩, ⟨3, [3, 4, 5], none⟩,
        ⟨2, [5, 6], some .eof⟩]) := by
  decide +kernel

/-! ## C139: after `Close` -/

/-- After `Close`, whatever the other handles do, this handle changes nothing in the file and delivers no bytes, and every `Write`,
`WriteSync`, `Read` and `Close` on it returns an error. -/
theorem C139_closed (f : List UInt8) (cs ds : List Call) (s s1 t u : St) (os os' : List Out) (h : Nat) (o o' : Out) (c : Call)
    (_hr : run (start f) cs = some (s, os)) (hcl : step s (.close h) = some (s1, o)) (hd : run s1 ds = some (t, os'))
    (hc : target c = some h) (hs : step t c = some (u, o')) :
    u.file = t.file ∧ o'.data = [] ∧
      ((∃ b, c = .write h b ∨ c = .writeSync h b) ∨ (∃ len, c = .read h len) ∨ c = .close h → o'.err = some .closed) := by
  have hxt : ∃ x, t.handles[h]? = some x ∧ x.live = false := by
    refine run_inv (I := fun s => ∃ x, s.handles[h]? = some x ∧ x.live = false) (P := fun _ => True) ?_ hd ?_ (fun _ _ => trivial)
    · rintro s c t o ⟨x, hx, hl⟩ _ hs
      have hlt : h < s.handles.length := (List.getElem?_eq_some_iff.mp hx).1
      rcases ht : target c with _ | i
      · obtain ⟨a, _, rfl⟩ := step_new hs ht
        exact ⟨x, by simp [List.getElem?_append_left hlt, hx], hl⟩
      · by_cases hi : i = h
        · subst hi
          cases c <;> simp only [target, Option.some.injEq, reduceCtorEq] at ht <;> subst ht <;>
            simp only [step, hx, Option.bind_eq_bind, Option.bind_some, Option.pure_def, Option.some.injEq, Prod.mk.injEq] at hs <;>
            obtain ⟨rfl, rfl⟩ := hs
          · exact ⟨_, List.getElem?_set_self hlt, hl⟩
          · exact ⟨_, List.getElem?_set_self hlt, hl⟩
          · exact ⟨x, hx, hl⟩
          · exact ⟨x, hx, hl⟩
          · exact ⟨_, List.getElem?_set_self hlt, hl⟩
          · exact ⟨_, List.getElem?_set_self hlt, rfl⟩
        · obtain ⟨y, z, hy, _, e⟩ := step_handle hs ht
          exact ⟨x, by rw [e, List.getElem?_set_ne hi]; exact hx, hl⟩
    · simp only [step, Option.bind_eq_bind, Option.bind_eq_some_iff, Option.pure_def, Option.some.injEq, Prod.mk.injEq] at hcl
      obtain ⟨x, hx, rfl, rfl⟩ := hcl
      have hlt : h < s.handles.length := (List.getElem?_eq_some_iff.mp hx).1
      exact ⟨_, List.getElem?_set_self hlt, rfl⟩
  obtain ⟨x, hx, hl⟩ := hxt
  cases c <;> simp only [target, Option.some.injEq, reduceCtorEq] at hc <;> subst hc <;>
    simp only [step, hx, Option.bind_eq_bind, Option.bind_some, Option.pure_def, Option.some.injEq, Prod.mk.injEq] at hs <;>
    obtain ⟨rfl, rfl⟩ := hs
  · simp [osWrite_closed hl]
  · simp [osWrite_closed hl]
  · refine ⟨?_, rfl, by simp⟩
    simp only [osWriteAt, hl]
    repeat' split
    all_goals first | rfl | simp_all
  · refine ⟨rfl, ?_, by simp⟩
    simp only [osReadAt, hl]
    repeat' split
    all_goals first | rfl | simp_all
  · simp [osRead, hl]
  · simp [hl]

example : run (start []) [.open, .write 0 [1], .close 0, .writeSync 0 [2], .read 0 1, .readAt 0 1 0, .close 0, .open, .readAt 1 1 0] =
    some (⟨[1], [⟨true, false, 1, 1⟩, ⟨true, true, 1, 1⟩]⟩,
      [⟨0, [], none⟩, ⟨1, [], none⟩, ⟨0, [], none⟩, ⟨1, [], some .closed⟩, ⟨0, [], some .closed⟩, ⟨0, [], some .closed⟩,
        ⟨0, [], some .closed⟩, ⟨0, [], none⟩, ⟨1, [1], none⟩]) := by decide +kernel

/-! ## C140: `New` on a file opened without `O_APPEND` -/

/-- C140, full statement: a file used through one handle, made by `New` without `O_APPEND`: `WriteSync` returns where its data is, and
what was written before is still there. -/
def C140_claim : Prop := ∀ (f : List UInt8) (cs : List Call) (s t : St) (os : List Out) (b : List UInt8) (o : Out),
  (∀ c ∈ cs, target c = some 0) → run (start f) (.new false :: cs) = some (s, os) → step s (.writeSync 0 b) = some (t, o) → o.err = none →
    Holds t.file o.n b ∧ t.file.take s.file.length = s.file

/-- `WriteAt` past the end, then `WriteSync`: the data of `WriteAt` is overwritten. -/
theorem C140_claim_false : ¬ C140_claim := by
  intro hc
  have := (hc [] [.writeAt 0 [1] 0] ⟨[1], [⟨false, true, 0, 0⟩]⟩ ⟨[2], [⟨false, true, 1, 1⟩]⟩ [⟨0, [], none⟩, ⟨1, [], none⟩] [2]
    ⟨0, [], none⟩ (by decide) (by decide +kernel) (by decide +kernel) rfl).2
  simp at this

/-- `WriteAt` past the end, `Read`, then `WriteSync`: the offset returned is not where the data is. -/
theorem C140_wrong_offset : ∃ (cs : List Call) (s t : St) (os : List Out) (o : Out), (∀ c ∈ cs, target c = some 0) ∧
    run (start []) (.new false :: cs) = some (s, os) ∧ step s (.writeSync 0 [2]) = some (t, o) ∧ o.err = none ∧ ¬ Holds t.file o.n [2] := by
  refine ⟨[.writeAt 0 [1] 0, .read 0 1], ⟨[1], [⟨false, true, 1, 0⟩]⟩, ⟨[1, 2], [⟨false, true, 2, 1⟩]⟩,
    [⟨0, [], none⟩, ⟨1, [], none⟩, ⟨1, [1], none⟩], ⟨0, [], none⟩, by decide, by decide +kernel, by decide +kernel, rfl, ?_⟩
  rintro ⟨a, b, e, l⟩
  have : a = [] := by simpa using l
  subst this
  simp at e

/-- The calls keep `WriteAt` inside the file, at every moment. -/
def StaysInside (s : St) : List Call → Prop
  | [] => True
  | c :: cs => Inside s c ∧ ∀ t o, step s c = some (t, o) → StaysInside t cs

/-- As long as `WriteAt` stays inside the file, the statement holds; append mode or not. Missing: `WriteAt` past the end. -/
theorem C140_inside_partial (f : List UInt8) (a : Bool) (cs : List Call) (s s0 t : St) (o0 : Out) (os : List Out) (b : List UInt8) (o : Out)
    (h0 : step (start f) (.new a) = some (s0, o0)) (hin : StaysInside s0 cs)
    (hr : run s0 cs = some (s, os)) (hw : step s (.writeSync 0 b) = some (t, o)) (he : o.err = none) :
    Holds t.file o.n b ∧ t.file = s.file ++ b := by
  have key : ∀ (s t : St) (cs : List Call) (o : List Out), AtEnd s → StaysInside s cs → run s cs = some (t, o) → AtEnd t := by
    intro s t cs
    induction cs generalizing s with
    | nil => intro o h _ hr; simp only [run, Option.some.injEq, Prod.mk.injEq] at hr; obtain ⟨rfl, rfl⟩ := hr; exact h
    | cons c cs ih =>
      intro o ha hi hr
      obtain ⟨s', o1, o2, h1, h2, rfl⟩ := run_cons hr
      exact ih s' o2 (step_atEnd ha hi.1 h1) (hi.2 _ _ h1) h2
  simp only [step, Option.some.injEq, Prod.mk.injEq] at h0
  obtain ⟨rfl, _⟩ := h0
  obtain ⟨x, hh, hp, ho⟩ := key _ s cs os ⟨_, rfl, rfl, rfl⟩ hin hr
  simp only [step, hh, List.getElem?_cons_zero, Option.bind_eq_bind, Option.bind_some, Option.pure_def, Option.some.injEq,
    Prod.mk.injEq] at hw
  obtain ⟨rfl, rfl⟩ := hw
  cases hl : x.live
  · rw [osWrite_closed hl] at he; cases he
  · simp only [osWrite_end hl hp]
    exact ⟨⟨s.file, [], by simp, ho.symm⟩, trivial⟩

example : run (start [1, 2]) [.new false, .writeSync 0 [3], .writeAt 0 [8, 9] 0, .read 0 2, .writeSync 0 [4]] =
    some (⟨[8, 9, 3, 4], [⟨false, true, 4, 4⟩]⟩,
      [⟨0, [], none⟩, ⟨2, [], none⟩, ⟨2, [], none⟩, ⟨0, [], some .eof⟩, ⟨3, [], none⟩]) := by decide +kernel

end Gofer.Props.FastFile
