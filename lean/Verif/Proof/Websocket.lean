import Verif.Spec.Websocket
import Verif.Proof.Count
import Mathlib.Data.List.Basic

/-! # WebSocket handler: helper lemmas -/
namespace Gofer.Websocket
open Gofer.Count

/-- The steps, one by one. -/
inductive Tr (cb : Cb) (s : St) : St → Prop where
  | open1 : s.new = .start → cb.onOpen = true → Tr cb s { s with new := .opening, log := .openBegin :: s.log }
  | open2 : s.new = .start → cb.onOpen = false → Tr cb s { s with new := .ready, rd := .check none }
  | open3 : s.new = .opening → Tr cb s { s with new := .ready, rd := .check none, log := .openEnd :: s.log }
  | send : s.new ≠ .start → Tr cb s { s with ths := s.ths ++ [Th.sCheck], log := .sendCall s.ths.length :: s.log }
  | close : s.new ≠ .start → Tr cb s { s with ths := s.ths ++ [Th.cSet], log := .closeCall s.ths.length :: s.log }
  | check1 (i : Nat) (e : Err) : s.ths[i]? = some .sCheck → s.err = some e →
      Tr cb s { s with ths := s.ths.set i (.sDone (some e)), log := .sendRet i (some e) :: s.log }
  | check2 (i : Nat) : s.ths[i]? = some .sCheck → s.err = none → Tr cb s { s with ths := s.ths.set i .sLock }
  | lock (i : Nat) : s.ths[i]? = some .sLock → s.mux = none → Tr cb s { s with ths := s.ths.set i .sBegin, mux := some i }
  | wbegin (i : Nat) : s.ths[i]? = some .sBegin → Tr cb s { s with ths := s.ths.set i .sEnd, log := .wireBegin i :: s.log }
  | wend (i : Nat) (r : Option Err) : s.ths[i]? = some .sEnd →
      Tr cb s { s with ths := s.ths.set i (.sDone r), mux := none, log := .sendRet i r :: .wireEnd i :: s.log }
  | cset (i : Nat) : s.ths[i]? = some .cSet → Tr cb s { s with ths := s.ths.set i .cConn, err := some .closed }
  | cconn (i : Nat) : s.ths[i]? = some .cConn → Tr cb s { s with ths := s.ths.set i .cDone, connClosed := true, log := .closeRet i :: s.log }
  | rcheck1 (e : Option Err) : s.rd = .check e → s.err = none → Tr cb s { s with rd := .recv }
  | rcheck2 (e : Option Err) : s.rd = .check e → s.err ≠ none → Tr cb s { s with rd := .fin e, log := .loopEnd :: s.log }
  | rset (e : Err) : s.rd = .setErr e → Tr cb s { s with err := some e, rd := .fin (some e), log := .loopEnd :: s.log }
  | rfin (e : Option Err) : s.rd = .fin e → Tr cb s { s with rd := .closeSet, errs := if cb.onError then s.errs ++ [e] else s.errs }
  | rcs : s.rd = .closeSet → Tr cb s { s with err := some .closed, rd := .closeConn }
  | rcc : s.rd = .closeConn → Tr cb s { s with connClosed := true, rd := .beforeOnClose }
  | rb1 : s.rd = .beforeOnClose → cb.onClose = true → Tr cb s { s with rd := .inOnClose, log := .onCloseBegin :: s.log }
  | rb2 : s.rd = .beforeOnClose → cb.onClose = false → Tr cb s { s with rd := .done }
  | rin : s.rd = .inOnClose → Tr cb s { s with rd := .done, log := .onCloseEnd :: s.log }
  | msg1 (m : Nat) : s.rd = .recv → cb.onMessage = true → Tr cb s { s with rd := .check none, msgs := s.msgs ++ [m], log := .received m :: s.log }
  | msg2 : s.rd = .recv → Tr cb s { s with rd := .check none }
  | fail (n : Nat) : s.rd = .recv → Tr cb s { s with rd := .setErr (.recv n) }
  | runMsg (k m : Nat) : s.msgs[k]? = some m → Tr cb s { s with msgs := s.msgs.eraseIdx k, log := .onMessage m :: s.log }
  | runErr (k : Nat) (e : Option Err) : s.errs[k]? = some e → Tr cb s { s with errs := s.errs.eraseIdx k, log := .onError e :: s.log }

theorem tr_of_step {cb : Cb} {s t : St} {a : Act} (h : step cb s a = some t) : Tr cb s t := by
  cases a with
  | new =>
    simp only [step, newStep] at h
    split at h
    · rename_i hn
      split at h
      · rename_i ho; cases h; exact .open1 hn ho
      · rename_i ho; cases h; exact .open2 hn (by simpa using ho)
    · rename_i hn; cases h; exact .open3 hn
    · cases h
  | send =>
    simp only [step] at h
    split at h
    · cases h
    · rename_i hn; cases h; exact .send hn
  | close =>
    simp only [step] at h
    split at h
    · cases h
    · rename_i hn; cases h; exact .close hn
  | th i ok =>
    simp only [step, thStep] at h
    split at h
    · rename_i hp
      split at h
      · rename_i e he; cases h; exact .check1 i e hp he
      · rename_i he; cases h; exact .check2 i hp he
    · rename_i hp
      split at h
      · rename_i hm; cases h; exact .lock i hp hm
      · cases h
    · rename_i hp; cases h; exact .wbegin i hp
    · rename_i hp; cases h; exact .wend i _ hp
    · rename_i hp; cases h; exact .cset i hp
    · rename_i hp; cases h; exact .cconn i hp
    · cases h
  | rd =>
    simp only [step, rdStep] at h
    split at h
    · rename_i e hr
      split at h
      · rename_i he; cases h; exact .rcheck1 e hr he
      · rename_i he; cases h; exact .rcheck2 e hr he
    · rename_i e hr; cases h; exact .rset e hr
    · rename_i e hr; cases h; exact .rfin e hr
    · rename_i hr; cases h; exact .rcs hr
    · rename_i hr; cases h; exact .rcc hr
    · rename_i hr
      split at h
      · rename_i hc; cases h; exact .rb1 hr hc
      · rename_i hc; cases h; exact .rb2 hr (by simpa using hc)
    · rename_i hr; cases h; exact .rin hr
    · cases h
  | msg m b =>
    simp only [step] at h
    split at h
    · rename_i hr
      split at h
      · rename_i hc; cases h; exact .msg1 m hr (by simp at hc; exact hc.2)
      · cases h; exact .msg2 hr
    · cases h
  | fail n =>
    simp only [step] at h
    split at h
    · rename_i hr; cases h; exact .fail n hr
    · cases h
  | runMsg k =>
    simp only [step] at h
    split at h
    · rename_i m hm; cases h; exact .runMsg k m hm
    · cases h
  | runErr k =>
    simp only [step] at h
    split at h
    · rename_i m hm; cases h; exact .runErr k m hm
    · cases h

theorem exec_inv {cb : Cb} {P : St → Prop} (hs : ∀ s t, P s → Tr cb s t → P t) :
    ∀ (as : List Act) (s t : St), P s → exec cb s as = some t → P t
  | [], s, t, h, e => by cases e; exact h
  | a :: as, s, t, h, e => by
    simp only [exec, Option.bind_eq_some_iff] at e
    obtain ⟨u, hu, e⟩ := e
    exact exec_inv hs as u t (hs s u h (tr_of_step hu)) e

theorem exec_append {cb : Cb} : ∀ (as bs : List Act) (s : St), exec cb s (as ++ bs) = (exec cb s as).bind fun t => exec cb t bs
  | [], bs, s => rfl
  | a :: as, bs, s => by
    simp only [List.cons_append, exec]
    cases step cb s a with
    | none => rfl
    | some u => simpa using exec_append as bs u

theorem split_cons {e b : Ev} {h l2 l1 : List Ev} (x : e :: h = l2 ++ b :: l1) :
    (l2 = [] ∧ e = b ∧ h = l1) ∨ ∃ l, l2 = e :: l ∧ h = l ++ b :: l1 := by
  cases l2 with
  | nil => simp at x; exact .inl ⟨rfl, x.1, x.2⟩
  | cons c l => simp at x; exact .inr ⟨l, by rw [x.1], x.2⟩

theorem after_cons {p : Ev → Prop} {e b : Ev} {h : List Ev} (x : After p b (e :: h)) : (e = b ∧ ∃ a ∈ h, p a) ∨ After p b h := by
  obtain ⟨l2, l1, hx, ha⟩ := x
  rcases split_cons hx with ⟨_, he, hl⟩ | ⟨l, _, hl⟩
  · exact .inl ⟨he, hl ▸ ha⟩
  · exact .inr ⟨l, l1, hl, ha⟩

/-! ## The error stays -/

def finishing : Rd → Bool
  | .fin _ | .closeSet | .closeConn | .beforeOnClose | .inOnClose | .done => true
  | _ => false
def closing : Th → Bool
  | .cConn | .cDone => true
  | _ => false
/-- A `Send` that has not passed its check, or has failed. -/
def lateTh : Th → Bool
  | .sCheck | .sDone (some _) => true
  | _ => false
def wired : Th → Bool
  | .sEnd | .sDone _ => true
  | _ => false

theorem err_stays {cb : Cb} {s t : St} (h : Tr cb s t) (he : s.err ≠ none) : t.err ≠ none := by
  cases h <;> first | exact he | simp

structure ErrInv (s : St) : Prop where
  fin : finishing s.rd = true → s.err ≠ none
  th : ∀ (i : Nat) (p : Th), s.ths[i]? = some p → closing p = true → s.err ≠ none
  ev : ∀ a ∈ s.log, Ended a → s.err ≠ none

theorem errInv_init : ErrInv init := ⟨by simp [init, finishing], by simp [init], by simp [init]⟩

theorem errInv_step {cb : Cb} {s t : St} (I : ErrInv s) (h : Tr cb s t) : ErrInv t := by
  obtain ⟨h1, h2, h3⟩ := I
  have app : ∀ (q : Th), closing q = false → ∀ (i : Nat) (p : Th), (s.ths ++ [q])[i]? = some p → closing p = true → s.err ≠ none := by
    intro q hq i p hp hc
    rcases get_app hp with ⟨hp, _⟩ | ⟨_, rfl⟩
    · exact h2 i p hp hc
    · rw [hq] at hc; cases hc
  have set : ∀ (j : Nat) (q : Th), (closing q = true → s.err ≠ none) → ∀ (i : Nat) (p : Th), (s.ths.set j q)[i]? = some p → closing p = true → s.err ≠ none := by
    intro j q hq i p hp hc
    rcases get_set_cases hp with ⟨_, rfl⟩ | ⟨_, hp⟩
    · exact hq hc
    · exact h2 i p hp hc
  have cons : ∀ (e : Ev), (Ended e → s.err ≠ none) → ∀ a ∈ e :: s.log, Ended a → s.err ≠ none := by
    intro e he a ha hx
    rcases List.mem_cons.1 ha with rfl | ha
    · exact he hx
    · exact h3 a ha hx
  cases h with
  | open1 => exact ⟨h1, h2, cons _ (by simp [Ended])⟩
  | open2 => exact ⟨by simp [finishing], h2, h3⟩
  | open3 => exact ⟨by simp [finishing], h2, cons _ (by simp [Ended])⟩
  | send => exact ⟨h1, app _ rfl, cons _ (by simp [Ended])⟩
  | close => exact ⟨h1, app _ rfl, cons _ (by simp [Ended])⟩
  | check1 => exact ⟨h1, set _ _ (by simp [closing]), cons _ (by simp [Ended])⟩
  | check2 => exact ⟨h1, set _ _ (by simp [closing]), h3⟩
  | lock => exact ⟨h1, set _ _ (by simp [closing]), h3⟩
  | wbegin => exact ⟨h1, set _ _ (by simp [closing]), cons _ (by simp [Ended])⟩
  | wend i r =>
    refine ⟨h1, set _ _ (by simp [closing]), ?_⟩
    intro a ha hx
    simp only [List.mem_cons] at ha
    rcases ha with rfl | rfl | ha
    · simp [Ended] at hx
    · simp [Ended] at hx
    · exact h3 a ha hx
  | cset => exact ⟨by simp, by simp, by simp⟩
  | cconn i hp => exact ⟨h1, set _ _ (fun _ => h2 i _ hp rfl), cons _ (fun _ => h2 i _ hp rfl)⟩
  | rcheck1 => exact ⟨by simp [finishing], h2, h3⟩
  | rcheck2 e hr he => exact ⟨fun _ => he, h2, fun _ _ _ => he⟩
  | rset => exact ⟨by simp, by simp, by simp⟩
  | rfin e hr => exact ⟨fun _ => h1 (by rw [hr]; rfl), h2, h3⟩
  | rcs => exact ⟨by simp, by simp, by simp⟩
  | rcc hr => exact ⟨fun _ => h1 (by rw [hr]; rfl), h2, h3⟩
  | rb1 hr => exact ⟨fun _ => h1 (by rw [hr]; rfl), h2, cons _ (by simp [Ended])⟩
  | rb2 hr => exact ⟨fun _ => h1 (by rw [hr]; rfl), h2, h3⟩
  | rin hr => exact ⟨fun _ => h1 (by rw [hr]; rfl), h2, cons _ (by simp [Ended])⟩
  | msg1 => exact ⟨by simp [finishing], h2, cons _ (by simp [Ended])⟩
  | msg2 => exact ⟨by simp [finishing], h2, h3⟩
  | fail => exact ⟨by simp [finishing], h2, h3⟩
  | runMsg => exact ⟨h1, h2, cons _ (by simp [Ended])⟩
  | runErr => exact ⟨h1, h2, cons _ (by simp [Ended])⟩

/-! ## Calls of `Send` -/

structure SendInv (s : St) : Prop where
  ret : ∀ (i : Nat) r, Ev.sendRet i r ∈ s.log → s.ths[i]? = some (.sDone r)
  wire : ∀ (i : Nat), Ev.wireBegin i ∈ s.log → ∃ p, s.ths[i]? = some p ∧ wired p = true
  late : ∀ (i : Nat), After Ended (.sendCall i) s.log → (∃ p, s.ths[i]? = some p ∧ lateTh p = true) ∧ Ev.wireBegin i ∉ s.log
  mux : ∀ (i : Nat) p, s.ths[i]? = some p → p = .sBegin ∨ p = .sEnd → s.mux = some i
  busy : ∀ (i : Nat) l2 l1, s.log = l2 ++ .wireBegin i :: l1 → Ev.wireEnd i ∈ l2 ∨ s.ths[i]? = some .sEnd
  excl : ∀ (i j : Nat) l2 lm l1, s.log = l2 ++ .wireBegin j :: (lm ++ .wireBegin i :: l1) → Ev.wireEnd i ∈ lm

theorem sendInv_init : SendInv init := by
  constructor <;> simp [init, After]

/-- Steps that leave the calls alone, but for an event that is no event of `Send`. -/
def neutral : Ev → Bool
  | .sendCall _ | .wireBegin _ | .wireEnd _ | .sendRet _ _ => false
  | _ => true

theorem sendInv_cons {s t : St} {e : Ev} (I : SendInv s) (hn : neutral e = true) (h1 : t.ths = s.ths) (h2 : t.mux = s.mux) (h3 : t.log = e :: s.log) :
    SendInv t := by
  obtain ⟨a1, a2, a3, a4, a5, a6⟩ := I
  have ne : ∀ {x : Ev}, neutral x = false → x ∈ e :: s.log → x ∈ s.log := by
    intro x hx hm
    rcases List.mem_cons.1 hm with rfl | hm
    · rw [hn] at hx; cases hx
    · exact hm
  constructor
  · rw [h1, h3]; exact fun i r hm => a1 i r (ne rfl hm)
  · rw [h1, h3]; exact fun i hm => a2 i (ne rfl hm)
  · rw [h1, h3]
    intro i hm
    rcases after_cons hm with ⟨rfl, _⟩ | hm
    · cases hn
    · exact ⟨(a3 i hm).1, fun hw => (a3 i hm).2 (ne rfl hw)⟩
  · rw [h1, h2]; exact a4
  · rw [h1, h3]
    intro i l2 l1 hx
    replace hx := split_cons hx
    rcases hx with ⟨_, rfl, _⟩ | ⟨l, rfl, hx⟩
    · cases hn
    · exact (a5 i l l1 hx).imp (List.mem_cons_of_mem _) id
  · rw [h3]
    intro i j l2 lm l1 hx
    replace hx := split_cons hx
    rcases hx with ⟨_, rfl, _⟩ | ⟨l, rfl, hx⟩
    · cases hn
    · exact a6 i j l lm l1 hx

theorem sendInv_same {s t : St} (I : SendInv s) (h1 : t.ths = s.ths) (h2 : t.mux = s.mux) (h3 : t.log = s.log) : SendInv t := by
  obtain ⟨a1, a2, a3, a4, a5, a6⟩ := I
  exact ⟨h1 ▸ h3 ▸ a1, h1 ▸ h3 ▸ a2, h1 ▸ h3 ▸ a3, h1 ▸ h2 ▸ a4, h1 ▸ h3 ▸ a5, h3 ▸ a6⟩

/-- A step of a call that begins or ends nothing on the wire. -/
theorem sendInv_set {s t : St} {i : Nat} {p q : Th} (I : SendInv s) (hp : s.ths[i]? = some p) (hd : ∀ r, p ≠ .sDone r) (hw : wired p = false)
    (hl : lateTh p = true → lateTh q = true) (hq : q = .sBegin ∨ q = .sEnd → t.mux = some i)
    (hm : ∀ (j : Nat) p', j ≠ i → s.ths[j]? = some p' → p' = .sBegin ∨ p' = .sEnd → t.mux = some j)
    (h1 : t.ths = s.ths.set i q) (h3 : t.log = s.log) : SendInv t := by
  obtain ⟨a1, a2, a3, a4, a5, a6⟩ := I
  constructor
  · rw [h1, h3]
    intro j r hx
    have hj := a1 j r hx
    by_cases hji : j = i
    · subst hji; rw [hp] at hj; cases hj; exact absurd rfl (hd r)
    · rw [get_set_ne hji]; exact hj
  · rw [h1, h3]
    intro j hx
    obtain ⟨p', hp', hw'⟩ := a2 j hx
    by_cases hji : j = i
    · subst hji; rw [hp] at hp'; cases hp'; rw [hw] at hw'; cases hw'
    · exact ⟨p', by rw [get_set_ne hji]; exact hp', hw'⟩
  · rw [h1, h3]
    intro j hx
    obtain ⟨⟨p', hp', hw'⟩, hn⟩ := a3 j hx
    refine ⟨?_, hn⟩
    by_cases hji : j = i
    · subst hji; rw [hp] at hp'; cases hp'; exact ⟨q, get_set_self hp, hl hw'⟩
    · exact ⟨p', by rw [get_set_ne hji]; exact hp', hw'⟩
  · rw [h1]
    intro j p' hj hb
    rcases get_set_cases hj with ⟨rfl, rfl⟩ | ⟨hne, hj⟩
    · exact hq hb
    · exact hm j p' hne hj hb
  · rw [h1, h3]
    intro j l2 l1 hx
    refine (a5 j l2 l1 hx).imp id fun hj => ?_
    by_cases hji : j = i
    · subst hji; rw [hp] at hj; cases hj; cases hw
    · rw [get_set_ne hji]; exact hj
  · rw [h3]; exact a6

theorem sendInv_app {s t : St} {q : Th} (I : SendInv s) (hq : q ≠ .sBegin ∧ q ≠ .sEnd) (h1 : t.ths = s.ths ++ [q]) (h2 : t.mux = s.mux) (h3 : t.log = s.log) :
    SendInv t := by
  obtain ⟨a1, a2, a3, a4, a5, a6⟩ := I
  have ext : ∀ {i : Nat} {p : Th}, s.ths[i]? = some p → (s.ths ++ [q])[i]? = some p := fun h => by
    rw [List.getElem?_append_left (List.getElem?_eq_some_iff.1 h).1]; exact h
  constructor
  · rw [h1, h3]; exact fun i r h => ext (a1 i r h)
  · rw [h1, h3]; exact fun i h => (a2 i h).imp fun p hp => ⟨ext hp.1, hp.2⟩
  · rw [h1, h3]; exact fun i h => ⟨(a3 i h).1.imp fun p hp => ⟨ext hp.1, hp.2⟩, (a3 i h).2⟩
  · rw [h1, h2]
    intro i p hp hb
    rcases get_app hp with ⟨hp, _⟩ | ⟨_, rfl⟩
    · exact a4 i p hp hb
    · rcases hb with hb | hb
      · exact absurd hb hq.1
      · exact absurd hb hq.2
  · rw [h1, h3]; exact fun i l2 l1 h => (a5 i l2 l1 h).imp id ext
  · rw [h3]; exact a6

theorem sendInv_step {cb : Cb} {s t : St} (I : SendInv s) (E : ErrInv s) (h : Tr cb s t) : SendInv t := by
  cases h with
  | open1 => exact sendInv_cons I rfl rfl rfl rfl
  | open2 => exact sendInv_same I rfl rfl rfl
  | open3 => exact sendInv_cons I rfl rfl rfl rfl
  | send hn =>
    obtain ⟨a1, a2, a3, a4, a5, a6⟩ := sendInv_app (t := { s with ths := s.ths ++ [Th.sCheck] }) I (by simp) rfl rfl rfl
    have hnew : Ev.wireBegin s.ths.length ∉ s.log := fun hw => by
      obtain ⟨p, hp, _⟩ := I.wire _ hw
      simp at hp
    constructor
    · intro i r hm
      simp only [List.mem_cons, reduceCtorEq, false_or] at hm
      exact a1 i r hm
    · intro i hm
      simp only [List.mem_cons, reduceCtorEq, false_or] at hm
      exact a2 i hm
    · intro i hm
      rcases after_cons hm with ⟨hi, _⟩ | hm
      · cases hi
        exact ⟨⟨.sCheck, by simp, rfl⟩, by simpa using hnew⟩
      · exact ⟨(a3 i hm).1, by simpa using (a3 i hm).2⟩
    · exact a4
    · intro i l2 l1 hx
      replace hx := split_cons hx
      rcases hx with ⟨_, hx, _⟩ | ⟨l, rfl, hx⟩
      · cases hx
      · exact (a5 i l l1 hx).imp (List.mem_cons_of_mem _) id
    · intro i j l2 lm l1 hx
      replace hx := split_cons hx
      rcases hx with ⟨_, hx, _⟩ | ⟨l, rfl, hx⟩
      · cases hx
      · exact a6 i j l lm l1 hx
  | close hn =>
    have J := sendInv_app (t := { s with ths := s.ths ++ [Th.cSet] }) I (by simp) rfl rfl rfl
    exact sendInv_cons J rfl rfl rfl rfl
  | check1 i e hp he =>
    have J : SendInv { s with ths := s.ths.set i (.sDone (some e)) } :=
      sendInv_set I hp (by simp) rfl (fun _ => rfl) (by simp) (fun j p' _ hj hb => I.mux j p' hj hb) rfl rfl
    obtain ⟨a1, a2, a3, a4, a5, a6⟩ := J
    constructor
    · intro j r hm
      simp only [List.mem_cons, Ev.sendRet.injEq] at hm
      rcases hm with ⟨rfl, rfl⟩ | hm
      · exact get_set_self hp
      · exact a1 j r hm
    · intro j hm
      simp only [List.mem_cons, reduceCtorEq, false_or] at hm
      exact a2 j hm
    · intro j hm
      rcases after_cons hm with ⟨hi, _⟩ | hm
      · cases hi
      · exact ⟨(a3 j hm).1, by simpa using (a3 j hm).2⟩
    · exact a4
    · intro i l2 l1 hx
      replace hx := split_cons hx
      rcases hx with ⟨_, hx, _⟩ | ⟨l, rfl, hx⟩
      · cases hx
      · exact (a5 i l l1 hx).imp (List.mem_cons_of_mem _) id
    · intro i j l2 lm l1 hx
      replace hx := split_cons hx
      rcases hx with ⟨_, hx, _⟩ | ⟨l, rfl, hx⟩
      · cases hx
      · exact a6 i j l lm l1 hx
  | check2 i hp he =>
    have nl : ¬ After Ended (.sendCall i) s.log := fun ⟨l2, l1, hx, a, ha, hE⟩ => E.ev a (by rw [hx]; simp [ha]) hE he
    obtain ⟨a1, a2, a3, a4, a5, a6⟩ := I
    constructor
    · intro j r hm
      have hj := a1 j r hm
      by_cases hji : j = i
      · subst hji; rw [hp] at hj; cases hj
      · show (s.ths.set i _)[j]? = _
        rw [get_set_ne hji]; exact hj
    · intro j hm
      obtain ⟨p', hp', hw'⟩ := a2 j hm
      by_cases hji : j = i
      · subst hji; rw [hp] at hp'; cases hp'; cases hw'
      · exact ⟨p', by show (s.ths.set i _)[j]? = _; rw [get_set_ne hji]; exact hp', hw'⟩
    · intro j hm
      by_cases hji : j = i
      · subst hji; exact absurd hm nl
      · obtain ⟨⟨p', hp', hw'⟩, hn⟩ := a3 j hm
        exact ⟨⟨p', by show (s.ths.set i _)[j]? = _; rw [get_set_ne hji]; exact hp', hw'⟩, hn⟩
    · intro j p' hj hb
      rcases get_set_cases hj with ⟨rfl, rfl⟩ | ⟨_, hj⟩
      · simp at hb
      · exact a4 j p' hj hb
    · intro j l2 l1 hx
      refine (a5 j l2 l1 hx).imp id fun hj => ?_
      by_cases hji : j = i
      · subst hji; rw [hp] at hj; cases hj
      · show (s.ths.set i _)[j]? = _
        rw [get_set_ne hji]; exact hj
    · exact a6
  | lock i hp hm =>
    refine sendInv_set I hp (by simp) rfl (by simp [lateTh]) (fun _ => rfl) ?_ rfl rfl
    intro j p' _ hj hb
    have := I.mux j p' hj hb
    rw [hm] at this; cases this
  | wbegin i hp =>
    have hmux := I.mux i _ hp (.inl rfl)
    obtain ⟨a1, a2, a3, a4, a5, a6⟩ := I
    have only : ∀ (j : Nat), s.ths[j]? ≠ some .sEnd := by
      intro j hj
      have := a4 j _ hj (.inr rfl)
      rw [hmux] at this; cases this
      rw [hp] at hj; cases hj
    constructor
    · intro j r hm
      simp only [List.mem_cons, reduceCtorEq, false_or] at hm
      have hj := a1 j r hm
      by_cases hji : j = i
      · subst hji; rw [hp] at hj; cases hj
      · show (s.ths.set i _)[j]? = _
        rw [get_set_ne hji]; exact hj
    · intro j hm
      by_cases hji : j = i
      · subst hji; exact ⟨.sEnd, get_set_self hp, rfl⟩
      · simp only [List.mem_cons, Ev.wireBegin.injEq, hji, false_or] at hm
        obtain ⟨p', hp', hw'⟩ := a2 j hm
        exact ⟨p', by show (s.ths.set i _)[j]? = _; rw [get_set_ne hji]; exact hp', hw'⟩
    · intro j hm
      rcases after_cons hm with ⟨hi, _⟩ | hm
      · cases hi
      · obtain ⟨⟨p', hp', hw'⟩, hn⟩ := a3 j hm
        by_cases hji : j = i
        · subst hji; rw [hp] at hp'; cases hp'; cases hw'
        · refine ⟨⟨p', by show (s.ths.set i _)[j]? = _; rw [get_set_ne hji]; exact hp', hw'⟩, ?_⟩
          simpa [hji] using hn
    · intro j p' hj hb
      rcases get_set_cases hj with ⟨rfl, rfl⟩ | ⟨_, hj⟩
      · exact hmux
      · exact a4 j p' hj hb
    · intro j l2 l1 hx
      replace hx := split_cons hx
      rcases hx with ⟨_, he, _⟩ | ⟨l, rfl, hx⟩
      · cases he; exact .inr (get_set_self hp)
      · rcases a5 j l l1 hx with h | h
        · exact .inl (List.mem_cons_of_mem _ h)
        · exact absurd h (only j)
    · intro i' j l2 lm l1 hx
      replace hx := split_cons hx
      rcases hx with ⟨_, he, hx⟩ | ⟨l, rfl, hx⟩
      · rcases a5 i' lm l1 hx with h | h
        · exact h
        · exact absurd h (only i')
      · exact a6 i' j l lm l1 hx
  | wend i r hp =>
    have hmux := I.mux i _ hp (.inr rfl)
    obtain ⟨a1, a2, a3, a4, a5, a6⟩ := I
    constructor
    · intro j r' hm
      simp only [List.mem_cons, Ev.sendRet.injEq, reduceCtorEq, false_or] at hm
      rcases hm with ⟨rfl, rfl⟩ | hm
      · exact get_set_self hp
      · have hj := a1 j r' hm
        by_cases hji : j = i
        · subst hji; rw [hp] at hj; cases hj
        · show (s.ths.set i _)[j]? = _
          rw [get_set_ne hji]; exact hj
    · intro j hm
      simp only [List.mem_cons, reduceCtorEq, false_or] at hm
      obtain ⟨p', hp', hw'⟩ := a2 j hm
      by_cases hji : j = i
      · subst hji; exact ⟨.sDone r, get_set_self hp, rfl⟩
      · exact ⟨p', by show (s.ths.set i _)[j]? = _; rw [get_set_ne hji]; exact hp', hw'⟩
    · intro j hm
      rcases after_cons hm with ⟨hi, _⟩ | hm
      · cases hi
      rcases after_cons hm with ⟨hi, _⟩ | hm
      · cases hi
      obtain ⟨⟨p', hp', hw'⟩, hn⟩ := a3 j hm
      by_cases hji : j = i
      · subst hji; rw [hp] at hp'; cases hp'; cases hw'
      · refine ⟨⟨p', by show (s.ths.set i _)[j]? = _; rw [get_set_ne hji]; exact hp', hw'⟩, ?_⟩
        simpa using hn
    · intro j p' hj hb
      rcases get_set_cases hj with ⟨rfl, rfl⟩ | ⟨hne, hj⟩
      · simp at hb
      · have := a4 j p' hj hb
        rw [hmux] at this; cases this; exact absurd rfl hne
    · intro j l2 l1 hx
      replace hx := split_cons hx
      rcases hx with ⟨_, he, _⟩ | ⟨l', rfl, hx⟩
      · cases he
      replace hx := split_cons hx
      rcases hx with ⟨_, he, _⟩ | ⟨l, rfl, hx⟩
      · cases he
      by_cases hji : j = i
      · subst hji; exact .inl (by simp)
      · rcases a5 j l l1 hx with h | h
        · exact .inl (by simp [h])
        · refine .inr ?_
          show (s.ths.set i _)[j]? = _
          rw [get_set_ne hji]; exact h
    · intro i' j l2 lm l1 hx
      replace hx := split_cons hx
      rcases hx with ⟨_, he, hx⟩ | ⟨l', rfl, hx⟩
      · cases he
      replace hx := split_cons hx
      rcases hx with ⟨_, he, hx⟩ | ⟨l, rfl, hx⟩
      · cases he
      exact a6 i' j l lm l1 hx
  | cset i hp =>
    exact sendInv_set I hp (by simp) rfl (by simp [lateTh]) (by simp) (fun j p' _ hj hb => I.mux j p' hj hb) rfl rfl
  | cconn i hp =>
    have J : SendInv { s with ths := s.ths.set i .cDone } :=
      sendInv_set I hp (by simp) rfl (by simp [lateTh]) (by simp) (fun j p' _ hj hb => I.mux j p' hj hb) rfl rfl
    exact sendInv_cons J rfl rfl rfl rfl
  | rcheck1 => exact sendInv_same I rfl rfl rfl
  | rcheck2 => exact sendInv_cons I rfl rfl rfl rfl
  | rset => exact sendInv_cons I rfl rfl rfl rfl
  | rfin => exact sendInv_same I rfl rfl rfl
  | rcs => exact sendInv_same I rfl rfl rfl
  | rcc => exact sendInv_same I rfl rfl rfl
  | rb1 => exact sendInv_cons I rfl rfl rfl rfl
  | rb2 => exact sendInv_same I rfl rfl rfl
  | rin => exact sendInv_cons I rfl rfl rfl rfl
  | msg1 => exact sendInv_cons I rfl rfl rfl rfl
  | msg2 => exact sendInv_same I rfl rfl rfl
  | fail => exact sendInv_same I rfl rfl rfl
  | runMsg => exact sendInv_cons I rfl rfl rfl rfl
  | runErr => exact sendInv_cons I rfl rfl rfl rfl

theorem send_exec {cb : Cb} {as : List Act} {t : St} (h : exec cb init as = some t) : ErrInv t ∧ SendInv t :=
  exec_inv (P := fun s => ErrInv s ∧ SendInv s) (fun _ _ I h => ⟨errInv_step I.1 h, sendInv_step I.2 I.1 h⟩) as init t ⟨errInv_init, sendInv_init⟩ h

end Gofer.Websocket
