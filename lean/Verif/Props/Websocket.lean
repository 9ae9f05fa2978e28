import Verif.Proof.WebsocketLife

/-!
# WebSocket handler (C73–C75, C116–C119)

Histories `s.log` have the last event first.
-/
namespace Gofer.Props.Websocket
open Gofer.Websocket

/-- All callbacks set. -/
def full : Cb := ⟨true, true, true, true⟩

/-! ## C73: the error stays -/

/-- Once a `Close` has returned or the read loop has ended, `Error()` is not nil, whatever happens afterwards. -/
theorem C73_error_stays (cb : Cb) (as bs : List Act) (s t : St) (h : exec cb init as = some s) (he : ∃ a ∈ s.log, Ended a)
    (ht : exec cb s bs = some t) : t.err ≠ none := by
  obtain ⟨a, ha, hE⟩ := he
  exact exec_inv (P := fun s => s.err ≠ none) (fun _ _ I h => err_stays h I) bs s t ((send_exec h).1.ev a ha hE) ht

/-- A `Send` called after that never touches the connection, and whatever it returns is an error. -/
theorem C73_send_fails (cb : Cb) (as : List Act) (s : St) (h : exec cb init as = some s) (i : Nat) (hi : After Ended (.sendCall i) s.log) :
    Ev.wireBegin i ∉ s.log ∧ ∀ r, Ev.sendRet i r ∈ s.log → r ≠ none := by
  obtain ⟨⟨p, hp, hl⟩, hw⟩ := (send_exec h).2.late i hi
  refine ⟨hw, ?_⟩
  rintro r hr rfl
  rw [(send_exec h).2.ret i none hr] at hp
  cases hp; cases hl

/-- And it does return, at its next step, without waiting for anything. -/
theorem C73_send_returns (cb : Cb) (as : List Act) (s : St) (h : exec cb init as = some s) (i : Nat) (hi : After Ended (.sendCall i) s.log)
    (hn : ∀ e, s.ths[i]? ≠ some (.sDone e)) (ok : Bool) : ∃ e t, step cb s (.th i ok) = some t ∧ t.log = .sendRet i (some e) :: s.log := by
  have E := (send_exec h).1
  obtain ⟨⟨p, hp, hl⟩, _⟩ := (send_exec h).2.late i hi
  obtain ⟨l2, l1, hx, a, ha, hE⟩ := hi
  obtain ⟨e, he⟩ := Option.ne_none_iff_exists'.1 (E.ev a (by rw [hx]; simp [ha]) hE)
  cases p with
  | sCheck => exact ⟨e, _, by simp only [step, thStep, hp, he]; rfl, rfl⟩
  | sDone r => exact absurd hp (hn r)
  | _ => cases hl

/-- A `Close` that returned, then a `Send`, which fails. -/
example : ∃ s, exec full init [.new, .new, .close, .th 0 true, .th 0 true, .send, .th 1 true] = some s ∧ After Ended (.sendCall 1) s.log ∧
    Ev.sendRet 1 (some .closed) ∈ s.log := by
  refine ⟨_, rfl, ⟨[_], _, rfl, .closeRet 0, by simp [St.add], trivial⟩, by simp [St.add]⟩

/-- A `Send` that was called before may use the connection even after `Close` has returned: the check and the sending are not one step. -/
theorem C73_send_before_close : ∃ as s, exec full init as = some s ∧ After (· = .closeRet 1) (.wireBegin 0) s.log :=
  ⟨[.new, .new, .send, .th 0 true, .close, .th 1 true, .th 1 true, .th 0 true, .th 0 true], _, rfl, [], _, rfl, .closeRet 1, by decide, rfl⟩

/-! ## C74: each callback once, and in order -/

/-- As claimed: `OnOpen` once and before everything, `OnClose` at most once, and no message delivered after it. -/
def C74_claim : Prop := ∀ (cb : Cb) (as : List Act) (s : St), exec cb init as = some s →
  s.log.count .openBegin ≤ 1 ∧ s.log.count .onCloseBegin ≤ 1 ∧ ∀ m, ¬ After (· = .onCloseEnd) (.onMessage m) s.log

theorem C74_claim_false : ¬ C74_claim := by
  intro h
  let as : List Act := [.new, .new, .rd, .msg 7 true, .rd, .fail 0, .rd, .rd, .rd, .rd, .rd, .rd, .runMsg 0]
  have e : exec full init as = some ((exec full init as).get (by decide +kernel)) := by simp
  refine (h full as _ e).2.2 7 ⟨[], ((exec full init as).get (by decide +kernel)).log.tail, ?_, .onCloseEnd, ?_, rfl⟩
  · decide +kernel
  · decide +kernel

/-- What holds. If `OnOpen` is set, it is the first thing that happens, it happens once, and the reading side does nothing before it has returned.
`OnClose` is called at most once, after the read loop has ended; no message is taken from the connection after that; and when nothing goes on any
more after the loop has ended, `OnClose` has been called exactly once if it is set. Missing: the goroutines of `OnMessage` that were started
before may run after `OnClose`. -/
theorem C74_callbacks_partial (cb : Cb) (as : List Act) (s : St) (h : exec cb init as = some s) :
    (cb.onOpen = true → s.log ≠ [] → s.log.getLast? = some .openBegin) ∧ s.log.count .openBegin ≤ 1 ∧
    (cb.onOpen = true → ∀ e l2 l1, Reading e → s.log = l2 ++ e :: l1 → Ev.openEnd ∈ l1) ∧
    s.log.count .onCloseBegin ≤ 1 ∧ s.log.count .onCloseEnd ≤ 1 ∧
    (∀ l2 l1, s.log = l2 ++ .onCloseBegin :: l1 → Ev.loopEnd ∈ l1) ∧
    (∀ m, ¬ After (fun e => e = .loopEnd ∨ e = .onCloseBegin) (.received m) s.log) ∧
    (quiescent cb s → Ev.loopEnd ∈ s.log → s.log.count .onCloseEnd = if cb.onClose = true then 1 else 0) := by
  have I := all_exec h
  have O := I.order
  refine ⟨?_, ?_, O.reading, ?_, ?_, O.loop1, ?_, ?_⟩
  · intro ho hl
    rcases O.first ho with h | ⟨l, h⟩
    · exact absurd h hl
    · rw [h]; simp
  · rw [O.opens]; split <;> omega
  · rw [O.closes]; split <;> omega
  · rw [O.closeEnds]; split <;> omega
  · rintro m ⟨l2, l1, hx, a, ha, rfl | rfl⟩
    · exact O.noRecv m ⟨l2, l1, hx, _, ha, rfl⟩
    · obtain ⟨l3, l4, hl⟩ := List.append_of_mem ha
      have := O.loop1 (l2 ++ .received m :: l3) l4 (by rw [hx, hl]; simp)
      exact O.noRecv m ⟨l2, l1, hx, .loopEnd, by rw [hl]; simp [this], rfl⟩
  · intro q hl
    obtain ⟨_, hr, _⟩ := quiet I q
    have hf : finishing s.rd = true := by
      cases hf : finishing s.rd with
      | true => rfl
      | false => exact absurd hl (I.phase.noLoop hf)
    rcases hr with hr | ⟨hr, _⟩
    · rw [O.closeEnds]; simp [hr]
    · rw [hr] at hf; cases hf

/-- A whole life: open, a message, a failure, close. -/
example : ∃ s, exec full init [.new, .new, .rd, .msg 7 true, .runMsg 0, .rd, .fail 0, .rd, .rd, .runErr 0, .rd, .rd, .rd, .rd] = some s ∧
    s.log.reverse = [.openBegin, .openEnd, .received 7, .onMessage 7, .loopEnd, .onError (some (.recv 0)), .onCloseBegin, .onCloseEnd] :=
  ⟨_, rfl, rfl⟩

/-! ## C75: TLS -/

/-- For a `wss:` URL: with `CertFiles` (even an empty list) the certificate of the server is verified against exactly the certificates of these
files, and the connection is refused if one of them cannot be read or holds no certificate; otherwise the same with `CertBytes`; with neither
it is not verified. Only `ws:` and `wss:` URLs are accepted. -/
theorem C75_tls {Cert : Type} (sys : Sys Cert) (c : Config) :
    (hasPrefix c.url "wss:" = true → ∀ fs, c.certFiles = some fs → tlsConfig sys c = ((fs.mapM sys.readFile).bind (pool sys.pem)).map .verify) ∧
    (hasPrefix c.url "wss:" = true → ∀ bs, c.certFiles = none → c.certBytes = some bs → tlsConfig sys c = (pool sys.pem bs).map .verify) ∧
    (hasPrefix c.url "wss:" = true → c.certFiles = none → c.certBytes = none → tlsConfig sys c = some .skipVerify) ∧
    (hasPrefix c.url "wss:" = false → hasPrefix c.url "ws:" = true → tlsConfig sys c = some .plain) ∧
    (hasPrefix c.url "wss:" = false → hasPrefix c.url "ws:" = false → tlsConfig sys c = none) := by
  refine ⟨?_, ?_, ?_, ?_, ?_⟩
  · intro h fs hf
    simp [tlsConfig, h, hf, loadFiles_eq]
  · intro h bs hf hb
    simp [tlsConfig, h, hf, hb, loadBytes_eq]
  · intro h hf hb
    simp [tlsConfig, h, hf, hb]
  · intro h h2
    simp [tlsConfig, h, h2]
  · intro h h2
    simp [tlsConfig, h, h2]

/-- Whenever a connection is tried: verified iff `wss:` and certificates are configured; unverified TLS iff `wss:` and none are; plain iff not `wss:`. -/
theorem C75_iff {Cert : Type} (sys : Sys Cert) (c : Config) (t : Tls Cert) (h : tlsConfig sys c = some t) :
    ((∃ roots, t = .verify roots) ↔ hasPrefix c.url "wss:" = true ∧ (c.certFiles ≠ none ∨ c.certBytes ≠ none)) ∧
    (t = .skipVerify ↔ hasPrefix c.url "wss:" = true ∧ c.certFiles = none ∧ c.certBytes = none) ∧
    (t = .plain ↔ hasPrefix c.url "wss:" = false) := by
  obtain ⟨h1, h2, h3, h4, h5⟩ := C75_tls sys c
  cases hw : hasPrefix c.url "wss:" with
  | false =>
    cases hs : hasPrefix c.url "ws:" with
    | false => rw [h5 hw hs] at h; cases h
    | true => rw [h4 hw hs] at h; cases h; simp
  | true =>
    cases hf : c.certFiles with
    | some fs =>
      rw [h1 hw fs hf] at h
      obtain ⟨r, _, rfl⟩ := Option.map_eq_some_iff.1 h
      simp
    | none =>
      cases hb : c.certBytes with
      | some bs =>
        rw [h2 hw bs hf hb] at h
        obtain ⟨r, _, rfl⟩ := Option.map_eq_some_iff.1 h
        simp
      | none =>
        rw [h3 hw hf hb] at h; cases h; simp

/-- An empty list of files verifies against nothing at all; `CertBytes` is then ignored. -/
example : tlsConfig (Cert := Nat) ⟨fun _ => none, fun _ => some [1]⟩ ⟨"wss://h", some [], some [[0]]⟩ = some (.verify []) := by decide +kernel
example : tlsConfig (Cert := Nat) ⟨fun _ => none, fun _ => some [1]⟩ ⟨"wss://h", none, some [[0]]⟩ = some (.verify [1]) := by decide +kernel
example : tlsConfig (Cert := Nat) ⟨fun _ => none, fun _ => some [1]⟩ ⟨"wss://h", none, none⟩ = some .skipVerify := by decide +kernel
example : tlsConfig (Cert := Nat) ⟨fun _ => none, fun _ => some [1]⟩ ⟨"http://h", none, none⟩ = none := by decide +kernel

/-! ## C116: messages arrive once and in order -/

/-- As claimed: what `OnMessage` has been given is, in order, what has been received so far (some of the last may be missing). -/
def C116_claim : Prop := ∀ (cb : Cb) (as : List Act) (s : St), exec cb init as = some s → delivered s.log <+: received s.log

theorem C116_claim_false : ¬ C116_claim := by
  intro h
  let as : List Act := [.new, .new, .rd, .msg 1 true, .rd, .msg 2 true, .runMsg 1, .runMsg 0]
  have e : exec full init as = some ((exec full init as).get (by decide +kernel)) := by simp
  have := h full as _ e
  revert this
  decide +kernel

/-- What holds: nothing is lost, invented or repeated. What was received is what was delivered and what is still to be delivered by a goroutine;
when nothing goes on any more all has been delivered. Missing: the order. -/
theorem C116_messages_partial (cb : Cb) (as : List Act) (s : St) (h : exec cb init as = some s) :
    (∀ m, (delivered s.log).count m ≤ (received s.log).count m) ∧ (received s.log).Perm (delivered s.log ++ s.msgs) ∧
    (quiescent cb s → (delivered s.log).Perm (received s.log)) := by
  have I := (all_exec h).msgs
  refine ⟨fun m => ?_, I, fun q => ?_⟩
  · rw [I.count_eq, List.count_append]; omega
  · have := q.2.2.2.2.1
    rw [this, List.append_nil] at I
    exact I.symm

example : ∃ s, exec full init [.new, .new, .rd, .msg 1 true, .rd, .msg 2 true, .runMsg 1, .runMsg 0, .rd] = some s ∧
    received s.log = [1, 2] ∧ delivered s.log = [2, 1] ∧ s.rd = .recv ∧ s.connClosed = false := ⟨_, rfl, by decide, by decide, rfl, rfl⟩

/-! ## C117: `OnError` is given an error -/

def C117_claim : Prop := ∀ (cb : Cb) (as : List Act) (s : St), exec cb init as = some s → (errors s.log).length ≤ 1 ∧ none ∉ errors s.log

/-- A `Close` while a message is being handled ends the loop without an error of `Receive`: `OnError` is called with nil. -/
theorem C117_claim_false : ¬ C117_claim := by
  intro h
  let as : List Act := [.new, .new, .rd, .close, .th 0 true, .msg 1 true, .rd, .rd, .runErr 0]
  have e : exec full init as = some ((exec full init as).get (by decide +kernel)) := by simp
  have := (h full as _ e).2
  revert this
  decide +kernel

/-- What holds: `OnError` is called at most once; and it is given an error if `Close` was never called. Missing: with a `Close` it may be given nil. -/
theorem C117_onError_partial (cb : Cb) (as : List Act) (s : St) (h : exec cb init as = some s) :
    (errors s.log).length ≤ 1 ∧ ((∀ i, Ev.closeCall i ∉ s.log) → none ∉ errors s.log) := by
  have I := all_exec h
  refine ⟨?_, ?_⟩
  · have := I.errs
    simp only [errsInv] at this
    split at this <;> omega
  · intro hc hm
    have := (I.noClose hc).log
    simp only [errors, List.mem_filterMap, List.mem_reverse] at hm
    obtain ⟨e, he, hx⟩ := hm
    cases e with
    | onError o => simp only [Option.some.injEq] at hx; subst hx; exact this he
    | _ => cases hx

example : ∃ s, exec full init [.new, .new, .rd, .fail 3, .rd, .rd, .runErr 0] = some s ∧ (∀ i, Ev.closeCall i ∉ s.log) ∧ errors s.log = [some (.recv 3)] :=
  ⟨_, rfl, by simp [St.add, init], by decide⟩

/-! ## C118: closing comes to an end -/

/-- After a `Close` was called, when nothing can go on by itself: the `Close` has returned, the read loop has ended, `OnError` and `OnClose` have been called
exactly once each if they are set, every message received has been delivered, and every `Send` has returned. -/
theorem C118_close_ends (cb : Cb) (as : List Act) (s : St) (h : exec cb init as = some s) (q : quiescent cb s) (i : Nat) (hc : Ev.closeCall i ∈ s.log) :
    s.ths[i]? = some .cDone ∧ s.rd = .done ∧ s.err ≠ none ∧ s.log.count .onCloseBegin = (if cb.onClose = true then 1 else 0) ∧
    s.log.count .onCloseEnd = (if cb.onClose = true then 1 else 0) ∧ (errors s.log).length = (if cb.onError = true then 1 else 0) ∧
    (delivered s.log).Perm (received s.log) ∧ ∀ (j : Nat) p, s.ths[j]? = some p → p = .cDone ∨ ∃ r, p = .sDone r := by
  have I := all_exec h
  obtain ⟨_, hr, ht⟩ := quiet I q
  obtain ⟨p, hp, hcl⟩ := I.conn.call i hc
  have hd : s.ths[i]? = some .cDone := by
    rcases ht i p hp with rfl | ⟨r, rfl⟩
    · exact hp
    · cases hcl
  have hcc := I.conn.th i hd
  have hr : s.rd = .done := by
    rcases hr with hr | ⟨_, hr⟩
    · exact hr
    · rw [hcc] at hr; cases hr
  refine ⟨hd, hr, I.err.fin (by rw [hr]; rfl), ?_, ?_, ?_, (C116_messages_partial cb as s h).2.2 q, ht⟩
  · rw [I.order.closes]; simp [hr]
  · rw [I.order.closeEnds]; simp [hr]
  · have := I.errs
    simp only [errsInv, q.2.2.2.2.2, List.length_nil, Nat.add_zero] at this
    rw [this]; simp [hr, pastFin]

/-- Such a state can always be reached: here after a `Close` while `read` waits. -/
example : ∃ s, exec full init [.new, .new, .rd, .close, .th 0 true, .th 0 true, .fail 0, .rd, .rd, .rd, .rd, .rd, .rd, .runErr 0] = some s ∧
    quiescent full s ∧ Ev.closeCall 0 ∈ s.log := by
  refine ⟨_, rfl, ⟨rfl, rfl, by simp [St.add], ?_, rfl, rfl⟩, by decide⟩
  intro i ok
  match i with
  | 0 => rfl
  | n + 1 => rfl

/-! ## C119: messages sent do not mix -/

/-- Between the beginnings of two uses of the connection by `Send` lies the end of the first. -/
theorem C119_no_mixing (cb : Cb) (as : List Act) (s : St) (h : exec cb init as = some s) (i j : Nat) (l2 lm l1 : List Ev)
    (hx : s.log = l2 ++ .wireBegin j :: (lm ++ .wireBegin i :: l1)) : Ev.wireEnd i ∈ lm :=
  (all_exec h).send.excl i j l2 lm l1 hx

/-- And no `Send` waits for ever for another: when nothing can go on, all have returned. -/
theorem C119_no_waiting (cb : Cb) (as : List Act) (s : St) (h : exec cb init as = some s) (q : quiescent cb s) (i : Nat) (p : Th) (hi : s.ths[i]? = some p) :
    p = .cDone ∨ ∃ r, p = .sDone r :=
  (quiet (all_exec h) q).2.2 i p hi

example : ∃ s, exec full init [.new, .new, .send, .send, .th 0 true, .th 1 true, .th 0 true, .th 0 true, .th 0 true, .th 1 true, .th 1 true] = some s ∧
    ∃ lm l1, s.log = .wireBegin 1 :: (lm ++ .wireBegin 0 :: l1) := ⟨_, rfl, [_, _], _, rfl⟩

end Gofer.Props.Websocket
