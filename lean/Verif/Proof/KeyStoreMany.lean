import Verif.Model.KeyStoreMany
import Verif.Proof.KeyStore
/-! # Lemmas about several stores over one file -/
namespace Gofer.KeyStoreMany
open Gofer.KeyBean Gofer.KeyStore
open Gofer.Spec.KeyStore hiding Bytes
open Gofer.Spec.Codec (Codec)

variable {m : Nat}

theorem upd_same {α : Type} (f : Fin m → α) (i : Fin m) (x : α) : upd f i x i = x := by simp [upd]
theorem upd_ne {α : Type} (f : Fin m → α) {i j : Fin m} (x : α) (h : j ≠ i) : upd f i x j = f j := by simp [upd, h]

/-- The method as a whole: what it does to the bean, then the write. -/
theorem body_step (c : Codec) (digest : Bytes → Bytes) (pick : KB → Orders) (kb : KB) (file : Bytes) (op : Op) :
    ∃ kb', (body digest pick (some kb) op).2.1 = some kb' ∧
      step c digest pick ⟨kb, file⟩ op = ((body digest pick (some kb) op).1, ⟨kb', match (body digest pick (some kb) op).2.2 with
        | none => file
        | some bs => write c bs⟩) := by
  cases op with
  | put k name pwd t => cases h : mapOf kb k <;> simp [body, step, h, save]
  | del k name =>
    cases h : mapOf kb k with
    | none => simp [body, step, h]
    | some x => by_cases h' : (x.load name).isSome <;> simp [body, step, h, h', save]
  | get k name =>
    rcases h : loadOf (mapOf kb k) name with _ | _ | u <;> simp [body, step, h]
  | list k => cases h : mapOf kb k <;> simp [body, step, h]
  | putOther key value => cases h : kb.other <;> simp [body, step, h, save]
  | delOther key =>
    cases h : kb.other with
    | none => simp [body, step, h]
    | some x => by_cases h' : (x.load key).isSome <;> simp [body, step, h, h', save]
  | getOther key => simp [body, step]

/-- No map holds a nil record. -/
def NoNil (kb : KB) : Prop := ∀ k x, mapOf kb k = some x → ∀ n, x.load n ≠ some none

/-- A method writes the bean it leaves, and puts no nil record. -/
theorem body_out (digest : Bytes → Bytes) {pick : KB → Orders} (hp : Picks pick) (b : Option KB) (op : Op) :
    (∀ bs, (body digest pick b op).2.2 = some bs → ∃ kb o, (body digest pick b op).2.1 = some kb ∧ OrdersOf kb o ∧ bs = tEncode kb o) ∧
    ((∀ kb, b = some kb → NoNil kb) → ∀ kb, (body digest pick b op).2.1 = some kb → NoNil kb) ∧
    ((body digest pick b op).2.2 = none → (body digest pick b op).2.1 = b) := by
  cases b with
  | none => simp [body]
  | some kb =>
    have set : NoNil kb → ∀ (k : Kind) (x : UserMap), (∀ n, x.load n ≠ some none) → NoNil (setMap kb k x) := by
      intro h k x hx k' y hy
      rw [mapOf_setMap] at hy
      split at hy
      · cases hy; exact hx
      · exact h k' y hy
    have oth : NoNil kb → ∀ o, NoNil { kb with other := o } := by
      intro h o k' y hy
      rw [mapOf_other] at hy; exact h k' y hy
    cases op with
    | put k name pwd t =>
      cases h : mapOf kb k with
      | none => simp [body, h]
      | some x =>
        simp only [body, h]
        refine ⟨fun bs e => ⟨_, _, rfl, hp _, (Option.some.inj e).symm⟩, fun hn kb' e => ?_, by simp⟩
        rw [← Option.some.inj e]
        refine set (hn kb rfl) _ _ fun n => ?_
        rw [AMap.load_store]
        split
        · simp
        · exact hn kb rfl k x h n
    | del k name =>
      cases h : mapOf kb k with
      | none => simp [body, h]
      | some x =>
        by_cases h' : (x.load name).isSome
        · simp only [body, h, h', if_true]
          refine ⟨fun bs e => ⟨_, _, rfl, hp _, (Option.some.inj e).symm⟩, fun hn kb' e => ?_, by simp⟩
          rw [← Option.some.inj e]
          refine set (hn kb rfl) _ _ fun n => ?_
          rw [AMap.load_delete]
          split
          · simp
          · exact hn kb rfl k x h n
        · simp [body, h, h']
    | get k name => rcases h : loadOf (mapOf kb k) name with _ | _ | u <;> simp [body, h]
    | list k => cases h : mapOf kb k <;> simp [body, h]
    | putOther key value =>
      cases h : kb.other with
      | none => simp [body, h]
      | some x =>
        simp only [body, h]
        refine ⟨fun bs e => ⟨_, _, rfl, hp _, (Option.some.inj e).symm⟩, fun hn kb' e => ?_, by simp⟩
        rw [← Option.some.inj e]
        exact oth (hn kb rfl) _
    | delOther key =>
      cases h : kb.other with
      | none => simp [body, h]
      | some x =>
        by_cases h' : (x.load key).isSome
        · simp only [body, h, h', if_true]
          refine ⟨fun bs e => ⟨_, _, rfl, hp _, (Option.some.inj e).symm⟩, fun hn kb' e => ?_, by simp⟩
          rw [← Option.some.inj e]
          exact oth (hn kb rfl) _
        · simp [body, h, h']
    | getOther key => simp [body]

/-- What holds always. -/
structure Inv (w : World m) : Prop where
  pend : ∀ i bs, w.pend i = some bs → ∃ kb o, w.kb i = some kb ∧ OrdersOf kb o ∧ bs = tEncode kb o
  noNil : ∀ i kb, w.kb i = some kb → NoNil kb

/-- The orders of a step really are iteration orders. -/
def goodAct : Act m → Prop
  | .call _ _ pick => Picks pick
  | _ => True

theorem inv_act {c : Codec} {limit : Nat} {digest : Bytes → Bytes} {w w' : World m} {a : Act m} {r} (hi : Inv w) (hg : goodAct a)
    (h : act c limit digest w a = some (w', r)) : Inv w' := by
  cases a with
  | load i =>
    simp only [act] at h
    split at h
    · rename_i hp
      simp only [Option.some.injEq, Prod.mk.injEq] at h
      rw [← h.1]
      constructor
      · intro j bs hj
        have hj : w.pend j = some bs := hj
        by_cases e : j = i
        · rw [e, hp] at hj; cases hj
        · simpa [upd_ne _ _ e] using hi.pend j bs hj
      · intro j kb hj
        have hj : upd w.kb i (some (load c limit w.file)) j = some kb := hj
        by_cases e : j = i
        · rw [e, upd_same] at hj; rw [← Option.some.inj hj]; exact load_noNil c limit w.file
        · rw [upd_ne _ _ e] at hj; exact hi.noNil j kb hj
    · cases h
  | call i op pick =>
    simp only [act] at h
    split at h
    · simp only [Option.some.injEq, Prod.mk.injEq] at h
      rw [← h.1]
      obtain ⟨h1, h2, _⟩ := body_out digest hg (w.kb i) op
      constructor
      · intro j bs hj
        have hj : upd w.pend i (body digest pick (w.kb i) op).2.2 j = some bs := hj
        show ∃ kb o, upd w.kb i (body digest pick (w.kb i) op).2.1 j = some kb ∧ _
        by_cases e : j = i
        · rw [e, upd_same] at hj ⊢; exact h1 bs hj
        · rw [upd_ne _ _ e] at hj ⊢; exact hi.pend j bs hj
      · intro j kb hj
        have hj : upd w.kb i (body digest pick (w.kb i) op).2.1 j = some kb := hj
        by_cases e : j = i
        · rw [e, upd_same] at hj; exact h2 (hi.noNil i) kb hj
        · rw [upd_ne _ _ e] at hj; exact hi.noNil j kb hj
    · cases h
  | write i =>
    simp only [act] at h
    split at h
    · cases h
    · simp only [Option.some.injEq, Prod.mk.injEq] at h
      rw [← h.1]
      refine ⟨fun j bs hj => ?_, hi.noNil⟩
      have hj : upd w.pend i none j = some bs := hj
      by_cases e : j = i
      · rw [e, upd_same] at hj; cases hj
      · rw [upd_ne _ _ e] at hj; exact hi.pend j bs hj

theorem inv_init (file : Bytes) : Inv (init m file) := ⟨by simp [init], by simp [init]⟩

theorem exec_cons {c : Codec} {limit : Nat} {digest : Bytes → Bytes} {w w2 : World m} {a : Act m} {as : List (Act m)} {rs}
    (h : exec c limit digest w (a :: as) = some (w2, rs)) :
    ∃ w' r rs', act c limit digest w a = some (w', r) ∧ exec c limit digest w' as = some (w2, rs') ∧ rs = r.toList ++ rs' := by
  simp only [exec] at h
  split at h
  · cases h
  · rename_i w' r h1
    split at h
    · cases h
    · rename_i w'' rs' h2
      cases h
      exact ⟨w', r, rs', h1, h2, rfl⟩

theorem exec_append {c : Codec} {limit : Nat} {digest : Bytes → Bytes} (as bs : List (Act m)) : ∀ {w w2 : World m} {rs},
    exec c limit digest w (as ++ bs) = some (w2, rs) →
    ∃ w1 rs1 rs2, exec c limit digest w as = some (w1, rs1) ∧ exec c limit digest w1 bs = some (w2, rs2) ∧ rs = rs1 ++ rs2 := by
  induction as with
  | nil => intro w w2 rs h; exact ⟨w, [], rs, rfl, h, rfl⟩
  | cons a as ih =>
    intro w w2 rs h
    obtain ⟨w', r, rs', h1, h2, h3⟩ := exec_cons h
    obtain ⟨w1, rs1, rs2, h4, h5, h6⟩ := ih h2
    exact ⟨w1, r.toList ++ rs1, rs2, by simp [exec, h1, h4], h5, by rw [h3, h6, List.append_assoc]⟩

theorem inv_exec {c : Codec} {limit : Nat} {digest : Bytes → Bytes} (as : List (Act m)) : ∀ {w w2 : World m} {rs}, Inv w → (∀ a ∈ as, goodAct a) →
    exec c limit digest w as = some (w2, rs) → Inv w2 := by
  induction as with
  | nil => intro w w2 rs hi _ h; cases h; exact hi
  | cons a as ih =>
    intro w w2 rs hi hg h
    obtain ⟨w', r, rs', h1, h2, _⟩ := exec_cons h
    exact ih (inv_act hi (hg a (by simp)) h1) (fun b hb => hg b (by simp [hb])) h2

/-- A step other than a write leaves the file. -/
theorem file_act {c : Codec} {limit : Nat} {digest : Bytes → Bytes} {w w' : World m} {a : Act m} {r} (hw : ∀ j, a ≠ .write j)
    (h : act c limit digest w a = some (w', r)) : w'.file = w.file := by
  cases a with
  | write i => exact absurd rfl (hw i)
  | _ =>
    simp only [act] at h
    split at h
    · simp only [Option.some.injEq, Prod.mk.injEq] at h; rw [← h.1]
    · cases h

theorem file_exec {c : Codec} {limit : Nat} {digest : Bytes → Bytes} (as : List (Act m)) : ∀ {w w2 : World m} {rs}, (∀ j, .write j ∉ as) →
    exec c limit digest w as = some (w2, rs) → w2.file = w.file := by
  induction as with
  | nil => intro w w2 rs _ h; cases h; rfl
  | cons a as ih =>
    intro w w2 rs hg h
    obtain ⟨w', r, rs', h1, h2, _⟩ := exec_cons h
    rw [ih (fun j hj => hg j (by simp [hj])) h2]
    exact file_act (fun j e => hg j (by simp [e])) h1

/-- The last write in a list. -/
theorem last_write (as : List (Act m)) : (∀ j, .write j ∉ as) ∨ ∃ as1 i as2, as = as1 ++ .write i :: as2 ∧ ∀ j, .write j ∉ as2 := by
  induction as with
  | nil => exact .inl (by simp)
  | cons a as ih =>
    rcases ih with h | ⟨as1, i, as2, e, h⟩
    · by_cases hw : ∃ j, a = .write j
      · obtain ⟨j, rfl⟩ := hw; exact .inr ⟨[], j, as, rfl, h⟩
      · exact .inl fun j hj => (List.mem_cons.1 hj).elim (fun e => hw ⟨j, e.symm⟩) (h j)
    · exact .inr ⟨a :: as1, i, as2, by rw [e]; rfl, h⟩

/-- The bean of a store changes only by its own calls. -/
theorem kb_act {c : Codec} {limit : Nat} {digest : Bytes → Bytes} {w w' : World m} {a : Act m} {r} (i : Fin m)
    (hl : a ≠ .load i) (hc : ∀ op pick, a ≠ .call i op pick) (h : act c limit digest w a = some (w', r)) : w'.kb i = w.kb i := by
  cases a with
  | load j =>
    have hj : i ≠ j := fun e => hl (by rw [e])
    simp only [act] at h
    split at h
    · simp only [Option.some.injEq, Prod.mk.injEq] at h; rw [← h.1]; exact upd_ne _ _ hj
    · cases h
  | call j op pick =>
    have hj : i ≠ j := fun e => hc op pick (by rw [e])
    simp only [act] at h
    split at h
    · simp only [Option.some.injEq, Prod.mk.injEq] at h; rw [← h.1]; exact upd_ne _ _ hj
    · cases h
  | write j =>
    simp only [act] at h
    split at h
    · cases h
    · simp only [Option.some.injEq, Prod.mk.injEq] at h; rw [← h.1]

/-- The results of one store. -/
def ofStore (i : Fin m) (rs : List (Fin m × Op × Res)) : List (Op × Res) := (rs.filter fun x => x.1 = i).map fun x => x.2

/-- Between its loads a store answers its own calls as four maps. -/
theorem accepts_exec {c : Codec} {limit : Nat} {digest : Bytes → Bytes} (i : Fin m) (as : List (Act m)) : ∀ {w w2 : World m} {rs} {kb : KB} {mm : Maps},
    (∀ a ∈ as, goodAct a) → .load i ∉ as → w.kb i = some kb → Rep kb mm → exec c limit digest w as = some (w2, rs) →
    Accepts (md5Str digest) mm ((ofStore i rs).map Prod.fst) ((ofStore i rs).map Prod.snd) ∧
      ∃ kb', w2.kb i = some kb' ∧ Rep kb' (after (md5Str digest) mm ((ofStore i rs).map Prod.fst)) := by
  induction as with
  | nil =>
    intro w w2 rs kb mm _ _ hk hr h
    cases h
    exact ⟨trivial, kb, hk, hr⟩
  | cons a as ih =>
    intro w w2 rs kb mm hg hl hk hr h
    obtain ⟨w', r, rs', h1, h2, h3⟩ := exec_cons h
    have hg' : ∀ b ∈ as, goodAct b := fun b hb => hg b (by simp [hb])
    have hl' : .load i ∉ as := fun hh => hl (by simp [hh])
    by_cases hc : ∃ op pick, a = .call i op pick
    · obtain ⟨op, pick, rfl⟩ := hc
      have hp : Picks pick := hg (.call i op pick) (by simp)
      simp only [act] at h1
      split at h1
      · simp only [Option.some.injEq, Prod.mk.injEq] at h1
        obtain ⟨kb', e1, e2⟩ := body_step c digest pick kb w.file op
        have hs := step_spec c digest hp ⟨kb, w.file⟩ mm hr op
        rw [e2] at hs
        have hk' : w'.kb i = some kb' := by
          rw [← h1.1]
          show upd w.kb i (body digest pick (w.kb i) op).2.1 i = _
          rw [upd_same, hk, e1]
        obtain ⟨i1, i2⟩ := ih hg' hl' hk' hs.2.1 h2
        have er : ofStore i rs = (op, (body digest pick (some kb) op).1) :: ofStore i rs' := by
          rw [h3, ← h1.2, hk]; simp [ofStore]
        rw [er]
        exact ⟨⟨hs.1, i1⟩, i2⟩
      · cases h1
    · have hk' := kb_act i (fun e => hl (by simp [e])) (fun op pick e => hc ⟨op, pick, e⟩) h1
      have er : ofStore i rs = ofStore i rs' := by
        rw [h3]
        cases a with
        | call j op pick =>
          have hj : j ≠ i := fun e => hc ⟨op, pick, by rw [e]⟩
          simp only [act] at h1
          split at h1
          · simp only [Option.some.injEq, Prod.mk.injEq] at h1
            rw [← h1.2]; simp [ofStore, hj]
          · cases h1
        | load j =>
          simp only [act] at h1
          split at h1
          · simp only [Option.some.injEq, Prod.mk.injEq] at h1; rw [← h1.2]; simp [ofStore]
          · cases h1
        | write j =>
          simp only [act] at h1
          split at h1
          · cases h1
          · simp only [Option.some.injEq, Prod.mk.injEq] at h1; rw [← h1.2]; simp [ofStore]
      rw [er]
      exact ih hg' hl' (hk'.trans hk) hr h2

theorem hasNil_of {kb : KB} (h : NoNil kb) : ¬ HasNil kb := by
  rintro (⟨x, k, hx, hl⟩ | ⟨x, k, hx, hl⟩ | ⟨x, k, hx, hl⟩)
  · exact h .admin x hx k hl
  · exact h .client x hx k hl
  · exact h .mq x hx k hl

end Gofer.KeyStoreMany
