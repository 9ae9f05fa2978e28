import Verif.Spec.KeyStoreDisk
import Verif.Proof.KeyStoreMany
/-! # Lemmas about the credential store and the disk -/
namespace Gofer.KeyStoreDisk
open Gofer.KeyBean Gofer.KeyStore
open Gofer.KeyStoreMany (body body_step body_out NoNil hasNil_of Faithful)
open Gofer.Spec.KeyStore hiding Bytes
open Gofer.Spec.Codec (Codec)

variable {c : Codec} {limit : Nat} {digest : Bytes → Bytes}

theorem exec_append (as bs : List Act) : ∀ w, exec c limit digest w (as ++ bs) =
    ((exec c limit digest (exec c limit digest w as).1 bs).1, (exec c limit digest w as).2 ++ (exec c limit digest (exec c limit digest w as).1 bs).2) := by
  induction as with
  | nil => intro w; rfl
  | cons a as ih =>
    intro w
    show (let (w', r) := act c limit digest w a; let (w'', rs) := exec c limit digest w' (as ++ bs); (w'', r.toList ++ rs)) = _
    simp only [ih]
    simp [exec]

/-- The bean after a method. -/
theorem call_kb (w : World) (op : Op) (pick : KB → Orders) (out : Out) :
    (body digest pick (some w.kb) op).2.1 = some (act c limit digest w (.call op pick out)).1.kb := by
  obtain ⟨kb', h, _⟩ := body_step c digest pick w.kb [] op
  show _ = some ((body digest pick (some w.kb) op).2.1.getD w.kb)
  rw [h]; rfl

theorem call_spec (w : World) {m : Maps} (h : Rep w.kb m) (op : Op) {pick : KB → Orders} (hp : Picks pick) (out : Out) :
    Answer m op (body digest pick (some w.kb) op).1 ∧ Rep (act c limit digest w (.call op pick out)).1.kb (next (md5Str digest) m op) := by
  have hs := step_spec c digest hp ⟨w.kb, []⟩ m h op
  obtain ⟨kb', e1, e2⟩ := body_step c digest pick w.kb [] op
  rw [e2] at hs
  rw [call_kb] at e1
  rw [Option.some.inj e1]
  exact ⟨hs.1, hs.2.1⟩

/-- Memory does not depend on the disk. -/
theorem exec_spec (as : List Act) : ∀ (w : World) (m : Maps), (∀ a ∈ as, isCall a) → Good as → Rep w.kb m →
    (exec c limit digest w as).2.map Prod.fst = ops as ∧ Accepts (md5Str digest) m (ops as) ((exec c limit digest w as).2.map Prod.snd) ∧
      Rep (exec c limit digest w as).1.kb (after (md5Str digest) m (ops as)) := by
  induction as with
  | nil => intro w m _ _ h; exact ⟨rfl, trivial, h⟩
  | cons a as ih =>
    intro w m hc hg h
    cases a with
    | call op pick out =>
      have hs := call_spec (c := c) (limit := limit) (digest := digest) w h op (hg op pick out (by simp)) out
      obtain ⟨i1, i2, i3⟩ := ih _ _ (fun a ha => hc a (by simp [ha])) (fun op pick out hm => hg op pick out (by simp [hm])) hs.2
      refine ⟨?_, ?_, i3⟩
      · show op :: ((exec c limit digest (act c limit digest w (.call op pick out)).1 as).2.map Prod.fst) = _
        rw [i1]; rfl
      · exact ⟨hs.1, i2⟩
    | _ => exact absurd (hc _ (List.mem_cons_self)) (by simp [isCall])

/-- Loading what the handle and the name both refer to. -/
theorem loadAdmin_same (w : World) (h : w.name = some w.handle) : (loadAdmin c limit w).kb = KeyStore.load c limit (w.files w.handle) := by
  simp only [loadAdmin, KeyStore.load, read, KeyStore.read, h]
  rfl

theorem found_eq (w : World) : found c limit digest w = match w.name with
    | none => Maps.empty
    | some f => contents (KeyStore.load c limit (w.files f)) := by
  unfold found
  show contents (loadAdmin c limit (openStore w)).kb = _
  cases hn : w.name with
  | none =>
    have h1 : (openStore w).name = some (openStore w).handle := by simp [openStore, hn]
    have h2 : (openStore w).files (openStore w).handle = [] := by simp [openStore, hn, setFile]
    rw [loadAdmin_same _ h1, h2]
    show contents (KeyStore.load c limit []) = Maps.empty
    have : KeyStore.load c limit [] = fresh := by simp [KeyStore.load, KeyStore.read]
    rw [this]
    exact rep_eq rep_fresh
  | some f =>
    have h1 : (openStore w).name = some (openStore w).handle := by simp [openStore, hn]
    have h2 : (openStore w).files (openStore w).handle = w.files f := by simp [openStore, hn]
    rw [loadAdmin_same _ h1, h2]

theorem noNil_load (w : World) : NoNil (loadAdmin c limit w).kb := by
  have hfresh : NoNil fresh := fun k x hx n => by
    have : x = AMap.empty := by cases k <;> simp [mapOf, fresh] at hx <;> exact hx.symm
    rw [this]; simp
  unfold loadAdmin
  show NoNil (match read c w with | none => fresh | some bs => match tDecode limit bs with | some kb => kb | none => fresh)
  split
  · exact hfresh
  · split
    · rename_i hd; exact tDecode_noNil hd
    · exact hfresh

theorem noNil_act {w : World} (h : NoNil w.kb) {a : Act} (hg : ∀ op pick out, a = .call op pick out → Picks pick) : NoNil (act c limit digest w a).1.kb := by
  cases a with
  | call op pick out =>
    have := (body_out digest (hg op pick out rfl) (some w.kb) op).2.1 (by intro kb e; rw [← Option.some.inj e]; exact h)
    exact this _ (call_kb w op pick out)
  | load => exact noNil_load _
  | restart => exact noNil_load _
  | replace bs => exact h
  | edit bs =>
    simp only [act]
    split <;> exact h
  | remove => exact h

theorem noNil_exec (as : List Act) : ∀ {w : World}, NoNil w.kb → Good as → NoNil (exec c limit digest w as).1.kb := by
  induction as with
  | nil => intro w h _; exact h
  | cons a as ih =>
    intro w h hg
    exact ih (noNil_act h (fun op pick out e => hg op pick out (by simp [e]))) (fun op pick out hm => hg op pick out (by simp [hm]))

/-- Without other programs the name and the handle stay together. -/
theorem name_act {w : World} (h : w.name = some w.handle) {a : Act} (hf : ¬ Foreign a) :
    (act c limit digest w a).1.name = some (act c limit digest w a).1.handle := by
  cases a with
  | call op pick out => exact h
  | load => exact h
  | restart =>
    show (openStore w).name = some (openStore w).handle
    simp [openStore, h]
  | _ => exact absurd trivial hf

theorem name_exec (as : List Act) : ∀ {w : World}, w.name = some w.handle → (∀ a ∈ as, ¬ Foreign a) →
    (exec c limit digest w as).1.name = some (exec c limit digest w as).1.handle := by
  induction as with
  | nil => intro w h _; exact h
  | cons a as ih =>
    intro w h hf
    exact ih (name_act h (hf a (by simp))) (fun b hb => hf b (by simp [hb]))

/-- The number of the open file is used up. -/
theorem handle_act {w : World} (h : w.handle < w.next ∧ ∀ f, w.name = some f → f < w.next) (a : Act) :
    (act c limit digest w a).1.handle < (act c limit digest w a).1.next ∧ ∀ f, (act c limit digest w a).1.name = some f → f < (act c limit digest w a).1.next := by
  cases a with
  | call op pick out => exact h
  | load => exact h
  | restart =>
    show (openStore w).handle < (openStore w).next ∧ ∀ f, (openStore w).name = some f → f < (openStore w).next
    unfold openStore
    split
    · rename_i f hn
      exact ⟨h.2 f hn, h.2⟩
    · exact ⟨Nat.lt_succ_self _, fun f hf => by rw [← Option.some.inj hf]; exact Nat.lt_succ_self _⟩
  | replace bs =>
    exact ⟨Nat.lt_succ_of_lt h.1, fun f hf => by rw [← Option.some.inj hf]; exact Nat.lt_succ_self _⟩
  | edit bs =>
    simp only [act]
    split
    · exact h
    · exact h
  | remove => exact ⟨h.1, fun f hf => by cases hf⟩

theorem handle_exec (as : List Act) : ∀ {w : World}, (w.handle < w.next ∧ ∀ f, w.name = some f → f < w.next) →
    ((exec c limit digest w as).1.handle < (exec c limit digest w as).1.next ∧ ∀ f, (exec c limit digest w as).1.name = some f → f < (exec c limit digest w as).1.next) := by
  induction as with
  | nil => intro w h; exact h
  | cons a as ih => intro w h; exact ih (handle_act h a)

/-- A process whose file is not the one under the name does nothing to the latter. -/
theorem moved_exec (as : List Act) : ∀ {w : World}, w.name ≠ some w.handle → (∀ a ∈ as, isCall a ∨ a = .load) →
    (exec c limit digest w as).1.name = w.name ∧ ∀ f, w.name = some f → (exec c limit digest w as).1.files f = w.files f := by
  induction as with
  | nil => intro w _ _; exact ⟨rfl, fun _ _ => rfl⟩
  | cons a as ih =>
    intro w h hc
    have h1 : (act c limit digest w a).1.name = w.name ∧ (act c limit digest w a).1.handle = w.handle ∧
        ∀ f, w.name = some f → (act c limit digest w a).1.files f = w.files f := by
      rcases hc a (by simp) with ha | rfl
      · cases a with
        | call op pick out =>
          refine ⟨rfl, rfl, fun f hf => ?_⟩
          simp only [act]
          cases (body digest pick (some w.kb) op).2.2 with
          | none => rfl
          | some bs =>
            have : f ≠ w.handle := by rintro rfl; exact h hf
            simp [setFile, this]
        | _ => exact absurd ha (by simp [isCall])
      · exact ⟨rfl, rfl, fun _ _ => rfl⟩
    obtain ⟨i1, i2⟩ := ih (w := (act c limit digest w a).1) (by rw [h1.1, h1.2.1]; exact h) (fun b hb => hc b (by simp [hb]))
    refine ⟨i1.trans h1.1, fun f hf => ?_⟩
    show (exec c limit digest (act c limit digest w a).1 as).1.files f = _
    rw [i2 f (by rw [h1.1]; exact hf), h1.2.2 f hf]

/-- A put that is done writes the bean. -/
theorem put_out (digest : Bytes → Bytes) (pick : KB → Orders) (kb : KB) (op : Op) (hop : (∃ k n p t, op = .put k n p t) ∨ ∃ k v, op = .putOther k v)
    (hd : (body digest pick (some kb) op).1 = .done) : ∃ bs, (body digest pick (some kb) op).2.2 = some bs := by
  rcases hop with ⟨k, n, p, t, rfl⟩ | ⟨k, v, rfl⟩
  · cases h : mapOf kb k with
    | none => simp [body, h] at hd
    | some x => exact ⟨_, by simp [body, h]; rfl⟩
  · cases h : kb.other with
    | none => simp [body, h] at hd
    | some x => exact ⟨_, by simp [body, h]; rfl⟩

/-- A read-only method leaves all as it is. -/
theorem readOnly_act (w : World) {op : Op} (h : ReadOnly op) (pick : KB → Orders) (out : Out) : (act c limit digest w (.call op pick out)).1 = w := by
  cases op with
  | get k n =>
    simp only [act, body]
    split <;> rfl
  | list k =>
    simp only [act, body]
    split <;> rfl
  | getOther k => rfl
  | _ => exact absurd h (by simp [ReadOnly])

theorem readOnly_exec (as : List Act) : ∀ {w : World}, (∀ a ∈ as, ∃ op pick out, a = .call op pick out ∧ ReadOnly op) → (exec c limit digest w as).1 = w := by
  induction as with
  | nil => intro w _; rfl
  | cons a as ih =>
    intro w h
    obtain ⟨op, pick, out, rfl, ho⟩ := h a (by simp)
    show (exec c limit digest (act c limit digest w (.call op pick out)).1 as).1 = w
    rw [readOnly_act w ho]
    exact ih (fun b hb => h b (by simp [hb]))

/-- A write that goes well leaves what the store holds. -/
theorem saved (hc : Faithful c) (hl : limit < 2 ^ 31) (w : World) (hw : w.name = some w.handle) (hn : NoNil w.kb) {op : Op}
    (hop : (∃ k n p t, op = .put k n p t) ∨ ∃ k v, op = .putOther k v) {pick : KB → Orders} (hp : Picks pick)
    (hd : (act c limit digest w (.call op pick .ok)).2 = some (op, .done)) (hfit : Fits limit (act c limit digest w (.call op pick .ok)).1.kb) :
    found c limit digest (act c limit digest w (.call op pick .ok)).1 = contents (act c limit digest w (.call op pick .ok)).1.kb := by
  have hd' : (body digest pick (some w.kb) op).1 = .done := by
    have : some (op, (body digest pick (some w.kb) op).1) = some (op, Res.done) := hd
    simpa using this
  obtain ⟨bs, hbs⟩ := put_out digest pick w.kb op hop hd'
  obtain ⟨kb, o, e, ho, hb⟩ := (body_out digest hp (some w.kb) op).1 bs hbs
  have hk := call_kb (c := c) (limit := limit) (digest := digest) w op pick .ok
  rw [e] at hk
  have hk := Option.some.inj hk
  have hnn := noNil_act (c := c) (limit := limit) (digest := digest) hn (a := .call op pick .ok) (by rintro _ _ _ ⟨⟩; exact hp)
  have hname : (act c limit digest w (.call op pick .ok)).1.name = some w.handle := hw
  have hfile : (act c limit digest w (.call op pick .ok)).1.files w.handle = KeyStore.write c (tEncode kb o) := by
    simp only [act, hbs, setFile, if_true, overwrite, hb]
  rw [found_eq, hname]
  simp only [hfile]
  rw [← hk] at hfit hnn ⊢
  obtain ⟨kb', e', hs⟩ := (tDecode_tEncode hl kb o ho hfit []).2 (hasNil_of hnn)
  rw [List.append_nil] at e'
  have : KeyStore.load c limit (KeyStore.write c (tEncode kb o)) = kb' := by
    simp only [KeyStore.load, hc _ (tEncode_ne_nil hl kb o ho hfit), e']
  rw [this]
  exact (contents_same hs).symm

end Gofer.KeyStoreDisk
