import Verif.Proof.Websocket
import Mathlib.Data.List.Perm.Basic

/-! # WebSocket handler: the life of a connection -/
namespace Gofer.Websocket
open Gofer.Count

theorem exec_inv2 {cb : Cb} {P Q : St → Prop} (hp : ∀ s t, P s → Tr cb s t → P t) (hs : ∀ s t, P s → Q s → Tr cb s t → Q t)
    {as : List Act} {s t : St} (h0 : P s) (h1 : Q s) (e : exec cb s as = some t) : Q t :=
  (exec_inv (P := fun s => P s ∧ Q s) (fun s t I h => ⟨hp s t I.1 h, hs s t I.1 I.2 h⟩) as s t ⟨h0, h1⟩ e).2

/-! ## Phases -/

/-- Where `NewHandler` and `read` are. -/
structure Phase (cb : Cb) (s : St) : Prop where
  start : s.new = .start → s.log = [] ∧ s.ths = [] ∧ s.err = none
  off : s.rd = .off ↔ s.new ≠ .ready
  none : s.new ≠ .ready → s.msgs = [] ∧ s.errs = []
  opened : cb.onOpen = true → s.new = .ready → Ev.openEnd ∈ s.log
  opening : s.new = .opening → cb.onOpen = true
  inClose : s.rd = .inOnClose → cb.onClose = true
  noLoop : finishing s.rd = false → Ev.loopEnd ∉ s.log

theorem phase_init (cb : Cb) : Phase cb init := by
  constructor <;> simp [init]

theorem phase_step {cb : Cb} {s t : St} (I : Phase cb s) (h : Tr cb s t) : Phase cb t := by
  obtain ⟨h1, h2, h3, h4, h6, h7, h5⟩ := I
  have rdy : s.rd ≠ .off → s.new = .ready := fun h => Classical.byContradiction fun hn => h (h2.2 hn)
  have thr : ∀ {i : Nat} {p : Th}, s.ths[i]? = some p → s.new ≠ .start := by
    intro i p hp hn
    rw [(h1 hn).2.1] at hp; simp at hp
  cases h with
  | open1 hn ho =>
    have hr := h2.2 (by simp [hn])
    have := h3 (by simp [hn])
    constructor <;> simp_all [finishing]
  | open2 hn ho =>
    constructor <;> simp_all [finishing]
  | open3 hn =>
    have hr := h2.2 (by simp [hn])
    have := h5 (by simp [hr, finishing])
    constructor <;> simp_all [finishing]
  | send hn => constructor <;> simp_all
  | close hn => constructor <;> simp_all
  | check1 i e hp => have := thr hp; constructor <;> simp_all
  | check2 i hp => have := thr hp; constructor <;> simp_all
  | lock i hp => have := thr hp; constructor <;> simp_all
  | wbegin i hp => have := thr hp; constructor <;> simp_all
  | wend i r hp => have := thr hp; constructor <;> simp_all
  | cset i hp => have := thr hp; constructor <;> simp_all
  | cconn i hp => have := thr hp; constructor <;> simp_all
  | rcheck1 e hr => have := rdy (by simp [hr]); constructor <;> simp_all [finishing]
  | rcheck2 e hr => have := rdy (by simp [hr]); constructor <;> simp_all [finishing]
  | rset e hr => have := rdy (by simp [hr]); constructor <;> simp_all [finishing]
  | rfin e hr => have := rdy (by simp [hr]); constructor <;> simp_all [finishing]
  | rcs hr => have := rdy (by simp [hr]); constructor <;> simp_all [finishing]
  | rcc hr => have := rdy (by simp [hr]); constructor <;> simp_all [finishing]
  | rb1 hr => have := rdy (by simp [hr]); constructor <;> simp_all [finishing]
  | rb2 hr => have := rdy (by simp [hr]); constructor <;> simp_all [finishing]
  | rin hr => have := rdy (by simp [hr]); constructor <;> simp_all [finishing]
  | msg1 m hr => have := rdy (by simp [hr]); constructor <;> simp_all [finishing]
  | msg2 hr => have := rdy (by simp [hr]); constructor <;> simp_all [finishing]
  | fail n hr => have := rdy (by simp [hr]); constructor <;> simp_all [finishing]
  | runMsg k m hm =>
    have : s.new = .ready := Classical.byContradiction fun hn => by rw [(h3 hn).1] at hm; simp at hm
    constructor <;> simp_all
  | runErr k m hm =>
    have : s.new = .ready := Classical.byContradiction fun hn => by rw [(h3 hn).2] at hm; simp at hm
    constructor <;> simp_all

/-! ## The order of the callbacks -/

structure Order (cb : Cb) (s : St) : Prop where
  first : cb.onOpen = true → s.log = [] ∨ ∃ l, s.log = l ++ [.openBegin]
  opens : s.log.count .openBegin = if cb.onOpen = true ∧ s.new ≠ .start then 1 else 0
  openEnds : s.log.count .openEnd = if cb.onOpen = true ∧ s.new = .ready then 1 else 0
  closes : s.log.count .onCloseBegin = if cb.onClose = true ∧ (s.rd = .inOnClose ∨ s.rd = .done) then 1 else 0
  closeEnds : s.log.count .onCloseEnd = if cb.onClose = true ∧ s.rd = .done then 1 else 0
  loops : s.log.count .loopEnd = if finishing s.rd = true then 1 else 0
  reading : cb.onOpen = true → ∀ e l2 l1, Reading e → s.log = l2 ++ e :: l1 → Ev.openEnd ∈ l1
  noRecv : ∀ m, ¬ After (· = .loopEnd) (.received m) s.log
  loop1 : ∀ l2 l1, s.log = l2 ++ .onCloseBegin :: l1 → Ev.loopEnd ∈ l1

theorem order_init (cb : Cb) : Order cb init := by
  constructor <;> simp [init, After, finishing]

/-- An event that is added: what is needed of it. -/
theorem order_cons {cb : Cb} {s t : St} {e : Ev} (P : Phase cb s) (I : Order cb s) (hl : t.log = e :: s.log)
    (hf : e = .openBegin ∨ s.log ≠ [] ∨ cb.onOpen = false) (hr : Reading e → s.new = .ready)
    (hm : ∀ m, e = .received m → finishing s.rd = false) (hc : e = .onCloseBegin → finishing s.rd = true)
    (a1 : t.log.count .openBegin = if cb.onOpen = true ∧ t.new ≠ .start then 1 else 0)
    (a2 : t.log.count .openEnd = if cb.onOpen = true ∧ t.new = .ready then 1 else 0)
    (a3 : t.log.count .onCloseBegin = if cb.onClose = true ∧ (t.rd = .inOnClose ∨ t.rd = .done) then 1 else 0)
    (a4 : t.log.count .onCloseEnd = if cb.onClose = true ∧ t.rd = .done then 1 else 0)
    (a5 : t.log.count .loopEnd = if finishing t.rd = true then 1 else 0) : Order cb t := by
  refine ⟨?_, a1, a2, a3, a4, a5, ?_, ?_, ?_⟩
  · intro ho
    rw [hl]
    rcases I.first ho with h | ⟨l, h⟩
    · rcases hf with rfl | hf | hf
      · exact .inr ⟨[], by rw [h]; rfl⟩
      · exact absurd h hf
      · rw [ho] at hf; cases hf
    · exact .inr ⟨e :: l, by rw [h]; rfl⟩
  · intro ho x l2 l1 hx hs
    rw [hl] at hs
    replace hs := split_cons hs
    rcases hs with ⟨_, rfl, rfl⟩ | ⟨l, rfl, hs⟩
    · exact P.opened ho (hr hx)
    · exact I.reading ho x l l1 hx hs
  · intro m hx
    rw [hl] at hx
    rcases after_cons hx with ⟨he, a, ha, rfl⟩ | hx
    · exact P.noLoop (hm m he) ha
    · exact I.noRecv m hx
  · intro l2 l1 hs
    rw [hl] at hs
    replace hs := split_cons hs
    rcases hs with ⟨_, he, rfl⟩ | ⟨l, rfl, hs⟩
    · have h1 := I.loops
      rw [if_pos (hc he)] at h1
      exact List.count_pos_iff.1 (by omega)
    · exact I.loop1 l l1 hs

theorem order_step {cb : Cb} {s t : St} (P : Phase cb s) (I : Order cb s) (h : Tr cb s t) : Order cb t := by
  have P' := P
  have I' := I
  obtain ⟨h1, h2, h3, h4, h6, h7, h5⟩ := P
  obtain ⟨b0, b1, b2, b3, b4, b5, b6, b7, b8⟩ := I
  have rdy : s.rd ≠ .off → s.new = .ready := fun h => Classical.byContradiction fun hn => h (h2.2 hn)
  have thr : ∀ {i : Nat} {p : Th}, s.ths[i]? = some p → s.new ≠ .start := by
    intro i p hp hn
    rw [(h1 hn).2.1] at hp; simp at hp
  have nf : s.new ≠ .start → s.log ≠ [] ∨ cb.onOpen = false := by
    intro hn
    cases ho : cb.onOpen with
    | false => exact .inr rfl
    | true =>
      refine .inl fun hl => ?_
      rw [hl, if_pos ⟨ho, hn⟩] at b1
      simp at b1
  have off : s.new ≠ .ready → s.rd = .off := h2.2
  cases h with
  | open1 hn ho =>
    have := off (by simp [hn])
    refine order_cons P' I' rfl (.inl rfl) (by simp [Reading]) (by simp) (by simp) ?_ ?_ ?_ ?_ ?_ <;> simp_all [List.count_cons, finishing]
  | open2 hn ho =>
    have := off (by simp [hn])
    constructor <;> simp_all [List.count_cons, finishing]
  | open3 hn =>
    have := off (by simp [hn])
    refine order_cons P' I' rfl (.inr (nf (by simp [hn]))) (by simp [Reading]) (by simp) (by simp) ?_ ?_ ?_ ?_ ?_ <;> simp_all [List.count_cons, finishing]
  | send hn =>
    refine order_cons P' I' rfl (.inr (nf hn)) (by simp [Reading]) (by simp) (by simp) ?_ ?_ ?_ ?_ ?_ <;> simp_all [List.count_cons]
  | close hn =>
    refine order_cons P' I' rfl (.inr (nf hn)) (by simp [Reading]) (by simp) (by simp) ?_ ?_ ?_ ?_ ?_ <;> simp_all [List.count_cons]
  | check1 i e hp =>
    refine order_cons P' I' rfl (.inr (nf (thr hp))) (by simp [Reading]) (by simp) (by simp) ?_ ?_ ?_ ?_ ?_ <;> simp_all [List.count_cons]
  | check2 i hp => exact ⟨b0, b1, b2, b3, b4, b5, b6, b7, b8⟩
  | lock i hp => exact ⟨b0, b1, b2, b3, b4, b5, b6, b7, b8⟩
  | wbegin i hp =>
    refine order_cons P' I' rfl (.inr (nf (thr hp))) (by simp [Reading]) (by simp) (by simp) ?_ ?_ ?_ ?_ ?_ <;> simp_all [List.count_cons]
  | wend i r hp =>
    have J : Order cb { s with log := .wireEnd i :: s.log } := by
      refine order_cons P' I' rfl (.inr (nf (thr hp))) (by simp [Reading]) (by simp) (by simp) ?_ ?_ ?_ ?_ ?_ <;> simp_all [List.count_cons]
    have Q : Phase cb { s with log := .wireEnd i :: s.log } := by
      have := thr hp
      constructor <;> simp_all
    refine order_cons Q J rfl (.inr (.inl (by simp))) (by simp [Reading]) (by simp) (by simp) ?_ ?_ ?_ ?_ ?_ <;> simp_all [List.count_cons]
  | cset i hp => exact ⟨b0, b1, b2, b3, b4, b5, b6, b7, b8⟩
  | cconn i hp =>
    refine order_cons P' I' rfl (.inr (nf (thr hp))) (by simp [Reading]) (by simp) (by simp) ?_ ?_ ?_ ?_ ?_ <;> simp_all [List.count_cons]
  | rcheck1 e hr => refine ⟨b0, ?_, ?_, ?_, ?_, ?_, b6, b7, b8⟩ <;> simp_all [finishing]
  | rcheck2 e hr =>
    have := rdy (by simp [hr])
    refine order_cons P' I' rfl (.inr (nf (by simp [this]))) (fun _ => this) (by simp) (by simp) ?_ ?_ ?_ ?_ ?_ <;> simp_all [List.count_cons, finishing]
  | rset e hr =>
    have := rdy (by simp [hr])
    refine order_cons P' I' rfl (.inr (nf (by simp [this]))) (fun _ => this) (by simp) (by simp) ?_ ?_ ?_ ?_ ?_ <;> simp_all [List.count_cons, finishing]
  | rfin e hr => refine ⟨b0, ?_, ?_, ?_, ?_, ?_, b6, b7, b8⟩ <;> simp_all [finishing]
  | rcs hr => refine ⟨b0, ?_, ?_, ?_, ?_, ?_, b6, b7, b8⟩ <;> simp_all [finishing]
  | rcc hr => refine ⟨b0, ?_, ?_, ?_, ?_, ?_, b6, b7, b8⟩ <;> simp_all [finishing]
  | rb1 hr =>
    have := rdy (by simp [hr])
    refine order_cons P' I' rfl (.inr (nf (by simp [this]))) (fun _ => this) (by simp) (by simp [hr, finishing]) ?_ ?_ ?_ ?_ ?_ <;> simp_all [List.count_cons, finishing]
  | rb2 hr => refine ⟨b0, ?_, ?_, ?_, ?_, ?_, b6, b7, b8⟩ <;> simp_all [finishing]
  | rin hr =>
    have := rdy (by simp [hr])
    refine order_cons P' I' rfl (.inr (nf (by simp [this]))) (fun _ => this) (by simp) (by simp) ?_ ?_ ?_ ?_ ?_ <;> simp_all [List.count_cons, finishing]
  | msg1 m hr =>
    have := rdy (by simp [hr])
    refine order_cons P' I' rfl (.inr (nf (by simp [this]))) (fun _ => this) (by simp [hr, finishing]) (by simp) ?_ ?_ ?_ ?_ ?_ <;> simp_all [List.count_cons, finishing]
  | msg2 hr => refine ⟨b0, ?_, ?_, ?_, ?_, ?_, b6, b7, b8⟩ <;> simp_all [finishing]
  | fail n hr => refine ⟨b0, ?_, ?_, ?_, ?_, ?_, b6, b7, b8⟩ <;> simp_all [finishing]
  | runMsg k m hm =>
    have : s.new = .ready := Classical.byContradiction fun hn => by rw [(h3 hn).1] at hm; simp at hm
    refine order_cons P' I' rfl (.inr (nf (by simp [this]))) (fun _ => this) (by simp) (by simp) ?_ ?_ ?_ ?_ ?_ <;> simp_all [List.count_cons]
  | runErr k m hm =>
    have : s.new = .ready := Classical.byContradiction fun hn => by rw [(h3 hn).2] at hm; simp at hm
    refine order_cons P' I' rfl (.inr (nf (by simp [this]))) (fun _ => this) (by simp) (by simp) ?_ ?_ ?_ ?_ ?_ <;> simp_all [List.count_cons]

theorem order_exec {cb : Cb} {as : List Act} {t : St} (h : exec cb init as = some t) : Phase cb t ∧ Order cb t :=
  exec_inv (P := fun s => Phase cb s ∧ Order cb s) (fun _ _ I h => ⟨phase_step I.1 h, order_step I.1 I.2 h⟩) as init t ⟨phase_init cb, order_init cb⟩ h

/-! ## Messages -/

theorem received_cons (e : Ev) (h : List Ev) : received (e :: h) = received h ++ (match e with | .received m => [m] | _ => []) := by
  cases e <;> simp [received]
theorem delivered_cons (e : Ev) (h : List Ev) : delivered (e :: h) = delivered h ++ (match e with | .onMessage m => [m] | _ => []) := by
  cases e <;> simp [delivered]
theorem errors_cons (e : Ev) (h : List Ev) : errors (e :: h) = errors h ++ (match e with | .onError m => [m] | _ => []) := by
  cases e <;> simp [errors]

theorem perm_erase {α : Type} {l : List α} {k : Nat} {a : α} (h : l[k]? = some a) : l.Perm (a :: l.eraseIdx k) := by
  obtain ⟨hk, rfl⟩ := List.getElem?_eq_some_iff.1 h
  exact (List.getElem_cons_eraseIdx_perm hk).symm

theorem msgs_step {cb : Cb} {s t : St} (I : (received s.log).Perm (delivered s.log ++ s.msgs)) (h : Tr cb s t) :
    (received t.log).Perm (delivered t.log ++ t.msgs) := by
  cases h with
  | msg1 m => simpa [received_cons, delivered_cons, ← List.append_assoc] using I.append_right [m]
  | runMsg k m hm =>
    simp only [received_cons, delivered_cons, List.append_nil]
    refine I.trans ?_
    rw [List.append_assoc]
    exact List.Perm.append_left _ (perm_erase hm)
  | _ => simpa [received_cons, delivered_cons] using I

/-- `go OnError` was passed. -/
def pastFin : Rd → Bool
  | .closeSet | .closeConn | .beforeOnClose | .inOnClose | .done => true
  | _ => false

def errsInv (cb : Cb) (s : St) : Prop := (errors s.log).length + s.errs.length = if cb.onError = true ∧ pastFin s.rd = true then 1 else 0

theorem errs_step {cb : Cb} {s t : St} (P : Phase cb s) (I : errsInv cb s) (h : Tr cb s t) : errsInv cb t := by
  simp only [errsInv] at I ⊢
  have off : s.new ≠ .ready → s.rd = .off := P.off.2
  cases h with
  | open1 hn => have := off (by simp [hn]); simp_all [errors_cons, pastFin]
  | open2 hn => have := off (by simp [hn]); simp_all [errors_cons, pastFin]
  | open3 hn => have := off (by simp [hn]); simp_all [errors_cons, pastFin]
  | rfin e hr =>
    cases ho : cb.onError <;> simp_all [pastFin]
  | runErr k e he =>
    have := (perm_erase he).length_eq
    simp only [List.length_cons] at this
    simp only [errors_cons, List.length_append, List.length_singleton]
    omega
  | _ => simp_all [errors_cons, pastFin]

/-! ## Errors handed to `OnError` -/

def isClose : Th → Bool
  | .cSet | .cConn | .cDone => true
  | _ => false

structure NoClose (s : St) : Prop where
  ths : ∀ (i : Nat) p, s.ths[i]? = some p → isClose p = false
  err : s.err ≠ none → finishing s.rd = true
  fin : s.rd ≠ .fin none
  errs : none ∉ s.errs
  log : Ev.onError none ∉ s.log

def noCloseInv (s : St) : Prop := (∀ i, Ev.closeCall i ∉ s.log) → NoClose s

theorem noClose_step {cb : Cb} {s t : St} (P : Phase cb s) (I : noCloseInv s) (h : Tr cb s t) : noCloseInv t := by
  intro hc
  have off : s.new ≠ .ready → s.rd = .off := P.off.2
  have hI : NoClose s := I fun i hi => hc i (by cases h <;> simp_all)
  obtain ⟨h1, h2, h3, h4, h5⟩ := hI
  have set : ∀ (j : Nat) (q : Th), isClose q = false → ∀ (i : Nat) (p : Th), (s.ths.set j q)[i]? = some p → isClose p = false := by
    intro j q hq i p hp
    rcases get_set_cases hp with ⟨_, rfl⟩ | ⟨_, hp⟩
    · exact hq
    · exact h1 i p hp
  cases h with
  | open1 hn => exact ⟨h1, h2, h3, h4, by simpa using h5⟩
  | open2 hn =>
    have hr := off (by simp [hn])
    have h6 : s.err = none := Classical.byContradiction fun h => by have := h2 h; rw [hr] at this; cases this
    exact ⟨h1, by simp [h6], by simp, h4, h5⟩
  | open3 hn =>
    have hr := off (by simp [hn])
    have h6 : s.err = none := Classical.byContradiction fun h => by have := h2 h; rw [hr] at this; cases this
    exact ⟨h1, by simp [h6], by simp, h4, by simpa using h5⟩
  | send =>
    refine ⟨?_, h2, h3, h4, by simpa using h5⟩
    intro i p hp
    rcases get_app hp with ⟨hp, _⟩ | ⟨_, rfl⟩
    · exact h1 i p hp
    · rfl
  | close => exact absurd (List.mem_cons_self) (hc _)
  | check1 => exact ⟨set _ _ rfl, h2, h3, h4, by simpa using h5⟩
  | check2 => exact ⟨set _ _ rfl, h2, h3, h4, h5⟩
  | lock => exact ⟨set _ _ rfl, h2, h3, h4, h5⟩
  | wbegin => exact ⟨set _ _ rfl, h2, h3, h4, by simpa using h5⟩
  | wend => exact ⟨set _ _ rfl, h2, h3, h4, by simpa using h5⟩
  | cset i hp => have := h1 i _ hp; cases this
  | cconn i hp => have := h1 i _ hp; cases this
  | rcheck1 e hr he => exact ⟨h1, fun h => absurd he h, by simp, h4, h5⟩
  | rcheck2 e hr he => have := h2 he; rw [hr] at this; cases this
  | rset => exact ⟨h1, fun _ => rfl, by simp, h4, by simpa using h5⟩
  | rfin e hr =>
    refine ⟨h1, fun _ => rfl, by simp, ?_, h5⟩
    show none ∉ (if cb.onError = true then s.errs ++ [e] else s.errs)
    have : e ≠ none := fun he => h3 (by rw [hr, he])
    split
    · simpa [h4] using this.symm
    · exact h4
  | rcs => exact ⟨h1, fun _ => rfl, by simp, h4, h5⟩
  | rcc => exact ⟨h1, fun _ => rfl, by simp, h4, h5⟩
  | rb1 => exact ⟨h1, fun _ => rfl, by simp, h4, by simpa using h5⟩
  | rb2 => exact ⟨h1, fun _ => rfl, by simp, h4, h5⟩
  | rin => exact ⟨h1, fun _ => rfl, by simp, h4, by simpa using h5⟩
  | msg1 m hr => exact ⟨h1, fun h => (by have := h2 h; rw [hr] at this; cases this), by simp, h4, by simpa using h5⟩
  | msg2 hr => exact ⟨h1, fun h => (by have := h2 h; rw [hr] at this; cases this), by simp, h4, h5⟩
  | fail n hr => exact ⟨h1, fun h => (by have := h2 h; rw [hr] at this; cases this), by simp, h4, h5⟩
  | runMsg => exact ⟨h1, h2, h3, h4, by simpa using h5⟩
  | runErr k e he =>
    refine ⟨h1, h2, h3, fun h => h4 (List.mem_of_mem_eraseIdx h), ?_⟩
    simp only [List.mem_cons, Ev.onError.injEq, not_or]
    exact ⟨fun hn => h4 (by rw [hn]; exact List.mem_of_getElem? he), h5⟩

/-! ## Closing comes to an end -/

structure ConnInv (s : St) : Prop where
  th : ∀ (i : Nat), s.ths[i]? = some .cDone → s.connClosed = true
  ev : ∀ i, Ev.closeRet i ∈ s.log → s.connClosed = true
  call : ∀ i, Ev.closeCall i ∈ s.log → ∃ p, s.ths[i]? = some p ∧ isClose p = true

theorem conn_step {cb : Cb} {s t : St} (I : ConnInv s) (h : Tr cb s t) : ConnInv t := by
  obtain ⟨h1, h2, h3⟩ := I
  have set : ∀ (j : Nat) (p q : Th), s.ths[j]? = some p → isClose p = isClose q → ∀ i, Ev.closeCall i ∈ s.log →
      ∃ p, (s.ths.set j q)[i]? = some p ∧ isClose p = true := by
    intro j p q hp hq i hi
    obtain ⟨p', hp', hc⟩ := h3 i hi
    by_cases hij : i = j
    · subst hij; rw [hp] at hp'; cases hp'
      exact ⟨q, get_set_self hp, by rw [← hq]; exact hc⟩
    · exact ⟨p', by rw [get_set_ne hij]; exact hp', hc⟩
  have set1 : ∀ (j : Nat) (q : Th), q ≠ .cDone → ∀ (i : Nat), (s.ths.set j q)[i]? = some .cDone → s.connClosed = true := by
    intro j q hq i hp
    rcases get_set_cases hp with ⟨_, h⟩ | ⟨_, hp⟩
    · exact absurd h.symm hq
    · exact h1 i hp
  have app1 : ∀ (q : Th), q ≠ .cDone → ∀ (i : Nat), (s.ths ++ [q])[i]? = some .cDone → s.connClosed = true := by
    intro q hq i hp
    rcases get_app hp with ⟨hp, _⟩ | ⟨_, h⟩
    · exact h1 i hp
    · exact absurd h.symm hq
  have ext : ∀ {q : Th} {i : Nat} {p : Th}, s.ths[i]? = some p → (s.ths ++ [q])[i]? = some p := fun h => by
    rw [List.getElem?_append_left (List.getElem?_eq_some_iff.1 h).1]; exact h
  cases h with
  | send => exact ⟨app1 _ (by simp), by simpa using h2, fun i hi => by simp at hi; exact (h3 i hi).imp fun p hp => ⟨ext hp.1, hp.2⟩⟩
  | close =>
    refine ⟨app1 _ (by simp), by simpa using h2, fun i hi => ?_⟩
    simp only [List.mem_cons, Ev.closeCall.injEq] at hi
    rcases hi with rfl | hi
    · exact ⟨.cSet, by simp, rfl⟩
    · exact (h3 i hi).imp fun p hp => ⟨ext hp.1, hp.2⟩
  | check1 i e hp => exact ⟨set1 _ _ (by simp), by simpa using h2, fun j hj => set i _ _ hp (by rfl) j (by simpa using hj)⟩
  | check2 i hp => exact ⟨set1 _ _ (by simp), h2, fun j hj => set i _ _ hp (by rfl) j hj⟩
  | lock i hp => exact ⟨set1 _ _ (by simp), h2, fun j hj => set i _ _ hp (by rfl) j hj⟩
  | wbegin i hp => exact ⟨set1 _ _ (by simp), by simpa using h2, fun j hj => set i _ _ hp (by rfl) j (by simpa using hj)⟩
  | wend i r hp => exact ⟨set1 _ _ (by simp), by simpa using h2, fun j hj => set i _ _ hp (by rfl) j (by simpa using hj)⟩
  | cset i hp => exact ⟨set1 _ _ (by simp), h2, fun j hj => set i _ _ hp (by rfl) j hj⟩
  | cconn i hp => exact ⟨fun _ _ => rfl, fun _ _ => rfl, fun j hj => set i _ _ hp (by rfl) j (by simpa using hj)⟩
  | rcc => exact ⟨fun _ _ => rfl, fun _ _ => rfl, h3⟩
  | _ => exact ⟨h1, by simpa using h2, by simpa using h3⟩

/-! ## The lock is held by a call at work -/

def muxInv (s : St) : Prop := ∀ i, s.mux = some i → s.ths[i]? = some .sBegin ∨ s.ths[i]? = some .sEnd

theorem mux_step {cb : Cb} {s t : St} (S : SendInv s) (I : muxInv s) (h : Tr cb s t) : muxInv t := by
  have ext : ∀ {q : Th} {i : Nat} {p : Th}, s.ths[i]? = some p → (s.ths ++ [q])[i]? = some p := fun h => by
    rw [List.getElem?_append_left (List.getElem?_eq_some_iff.1 h).1]; exact h
  have set : ∀ (j : Nat) (p q : Th), s.ths[j]? = some p → p ≠ .sBegin → p ≠ .sEnd → ∀ i, s.mux = some i →
      (s.ths.set j q)[i]? = some .sBegin ∨ (s.ths.set j q)[i]? = some .sEnd := by
    intro j p q hp h1 h2 i hi
    have hij : i ≠ j := by
      rintro rfl
      rcases I i hi with h | h
      · rw [hp] at h; cases h; exact h1 rfl
      · rw [hp] at h; cases h; exact h2 rfl
    rw [get_set_ne hij]; exact I i hi
  cases h with
  | send => exact fun i hi => (I i hi).imp ext ext
  | close => exact fun i hi => (I i hi).imp ext ext
  | check1 i e hp => exact set i _ _ hp (by simp) (by simp)
  | check2 i hp => exact set i _ _ hp (by simp) (by simp)
  | lock i hp => intro j hj; cases hj; exact .inl (get_set_self hp)
  | wbegin i hp =>
    intro j hj
    have := S.mux i _ hp (.inl rfl)
    rw [show s.mux = some j from hj] at this; cases this
    exact .inr (get_set_self hp)
  | wend => intro j hj; cases hj
  | cset i hp => exact set i _ _ hp (by simp) (by simp)
  | cconn i hp => exact set i _ _ hp (by simp) (by simp)
  | _ => exact I

structure AllInv (cb : Cb) (s : St) : Prop where
  err : ErrInv s
  send : SendInv s
  phase : Phase cb s
  order : Order cb s
  msgs : (received s.log).Perm (delivered s.log ++ s.msgs)
  errs : errsInv cb s
  noClose : noCloseInv s
  conn : ConnInv s
  mux : muxInv s

theorem all_exec {cb : Cb} {as : List Act} {t : St} (h : exec cb init as = some t) : AllInv cb t := by
  refine exec_inv (P := AllInv cb) ?_ as init t ?_ h
  · intro s t I h
    exact ⟨errInv_step I.err h, sendInv_step I.send I.err h, phase_step I.phase h, order_step I.phase I.order h, msgs_step I.msgs h,
      errs_step I.phase I.errs h, noClose_step I.phase I.noClose h, conn_step I.conn h, mux_step I.send I.mux h⟩
  · exact ⟨errInv_init, sendInv_init, phase_init cb, order_init cb, by simp [init, received, delivered], by simp [errsInv, init, errors, pastFin],
      fun _ => ⟨by simp [init], by simp [init], by simp [init], by simp [init], by simp [init]⟩,
      ⟨by simp [init], by simp [init], by simp [init]⟩, by simp [muxInv, init]⟩

/-- Where everything is when nothing goes on. -/
theorem quiet {cb : Cb} {s : St} (I : AllInv cb s) (q : quiescent cb s) :
    s.new = .ready ∧ (s.rd = .done ∨ s.rd = .recv ∧ s.connClosed = false) ∧
    (∀ (i : Nat) p, s.ths[i]? = some p → p = .cDone ∨ ∃ r, p = .sDone r) := by
  obtain ⟨q1, q2, q3, q4, _, _⟩ := q
  have hn : s.new = .ready := by
    simp only [step, newStep] at q1
    cases hn : s.new with
    | ready => rfl
    | start => simp only [hn] at q1; split at q1 <;> cases q1
    | opening => simp only [hn] at q1; cases q1
  refine ⟨hn, ?_, ?_⟩
  · have ho : s.rd ≠ .off := fun h => (I.phase.off.1 h) hn
    simp only [step, rdStep] at q2
    cases hr : s.rd with
    | off => exact absurd hr ho
    | done => exact .inl rfl
    | recv => exact .inr ⟨rfl, q3 hr⟩
    | check e => simp only [hr] at q2; split at q2 <;> cases q2
    | setErr e => simp only [hr] at q2; cases q2
    | fin e => simp only [hr] at q2; cases q2
    | closeSet => simp only [hr] at q2; cases q2
    | closeConn => simp only [hr] at q2; cases q2
    | beforeOnClose => simp only [hr] at q2; split at q2 <;> cases q2
    | inOnClose => simp only [hr] at q2; cases q2
  · have busy : ∀ (i : Nat), s.ths[i]? ≠ some .sBegin ∧ s.ths[i]? ≠ some .sEnd := by
      intro i
      have := q4 i true
      simp only [step, thStep] at this
      constructor
      · intro h; simp only [h] at this; cases this
      · intro h; simp only [h] at this; cases this
    intro i p hp
    have := q4 i true
    simp only [step, thStep, hp] at this
    cases p with
    | sCheck => cases he : s.err <;> simp [he] at this
    | sLock =>
      simp only at this
      split at this
      · cases this
      · rename_i hm
        obtain ⟨j, hj⟩ := Option.ne_none_iff_exists'.1 hm
        rcases I.mux j hj with h | h
        · exact absurd h (busy j).1
        · exact absurd h (busy j).2
    | sBegin => cases this
    | sEnd => cases this
    | sDone r => exact .inr ⟨r, rfl⟩
    | cSet => cases this
    | cConn => cases this
    | cDone => exact .inl rfl

/-! ## Certificates -/

theorem loadBytes_eq {Cert : Type} (sys : Sys Cert) : ∀ bs, loadBytes sys bs = pool sys.pem bs
  | [] => by simp [loadBytes, pool]
  | b :: l => by
    rw [loadBytes, loadBytes_eq sys l]
    cases hb : sys.pem b with
    | none => simp [pool, hb]
    | some cs =>
      simp only [pool, List.mem_cons, forall_eq_or_imp, hb, Option.isSome_some, true_and, List.flatMap_cons, Option.getD_some]
      split <;> simp

theorem loadFiles_eq {Cert : Type} (sys : Sys Cert) : ∀ fs, loadFiles sys fs = (fs.mapM sys.readFile).bind (pool sys.pem)
  | [] => by simp [loadFiles, pool]
  | f :: l => by
    rw [loadFiles, loadFiles_eq sys l]
    cases hf : sys.readFile f with
    | none => simp [hf]
    | some b =>
      cases hl : l.mapM sys.readFile with
      | none =>
        simp only [hf, hl, List.mapM_cons, Option.bind_eq_bind, Option.bind_some, Option.bind_none]
        cases sys.pem b <;> rfl
      | some bs =>
        simp only [hf, hl, List.mapM_cons, Option.bind_eq_bind, Option.bind_some, Option.pure_def]
        have := loadBytes_eq sys (b :: bs)
        rw [← this, loadBytes, loadBytes_eq sys bs]

end Gofer.Websocket
