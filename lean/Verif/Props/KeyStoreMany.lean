import Verif.Spec.KeyStoreMany
import Verif.Proof.KeyStoreMany
import Verif.Props.KeyStore
/-! # Property C182: several credential stores over the one key file -/
namespace Gofer.Props.KeyStoreMany
open Gofer.KeyStoreMany Gofer.KeyBean Gofer.KeyStore
open Gofer.Spec.KeyBean (User)
open Gofer.Spec.KeyStore hiding Bytes
open Gofer.Spec.Codec (Codec)
open Gofer.Props.KeyStore (anyPick anyPick_picks)

theorem good_of {m : Nat} {as : List (Act m)} (h : Good as) : ∀ a ∈ as, goodAct a := by
  intro a ha
  cases a with
  | call i op pick => exact h i op pick ha
  | _ => trivial

/-- C182, as stated: nobody deletes, no user is put twice, all calls have returned and the sizes are within the limit of the protocol; then a store that loads the file finds every
user that was put through some store. -/
def C182_claim : Prop := ∀ (c : Codec), Faithful c → ∀ (limit : Nat), limit < 2 ^ 31 → ∀ (digest : Bytes → Bytes) (m : Nat) (as : List (Act m)) (w : World m)
  (rs : List (Fin m × Op × Res)), Good as → NoDel as → (puts as).Nodup → exec c limit digest (init m []) as = some (w, rs) → Rest w →
  (∀ i kb, w.kb i = some kb → Fits limit kb) →
  ∀ i k n p t, (i, .put k n p t, .done) ∈ rs → (contents (load c limit w.file)).user k n = some ⟨n, md5Str digest p, t⟩

/-- C182. What is in the file: nothing was written since the start, or the whole bean of the store that wrote last, as it was then; whatever the other stores put is not in it
unless that store had it too. A store that loads the file finds exactly what the last writer had. Missing: what the others put. -/
theorem C182_last_writer_partial (c : Codec) (hc : Faithful c) (limit : Nat) (hl : limit < 2 ^ 31) (digest : Bytes → Bytes) (m : Nat) (file : Bytes)
    (as : List (Act m)) (hg : Good as) (w : World m) (rs : List (Fin m × Op × Res)) (h : exec c limit digest (init m file) as = some (w, rs)) :
    ((∀ j, .write j ∉ as) ∧ w.file = file) ∨
    ∃ as1 i as2 w1 rs1 kb, as = as1 ++ .write i :: as2 ∧ (∀ j, .write j ∉ as2) ∧ exec c limit digest (init m file) as1 = some (w1, rs1) ∧ w1.kb i = some kb ∧
      (∃ o, OrdersOf kb o ∧ w.file = write c (tEncode kb o)) ∧ (Fits limit kb → contents (load c limit w.file) = contents kb) := by
  rcases last_write as with hn | ⟨as1, i, as2, rfl, h2⟩
  · exact .inl ⟨hn, file_exec as hn h⟩
  · right
    obtain ⟨w1, rs1, rs2, e1, e2, _⟩ := exec_append as1 _ h
    have hi := inv_exec as1 (inv_init file) (fun a ha => good_of hg a (by simp [ha])) e1
    obtain ⟨w2, r, rs3, e3, e4, _⟩ := exec_cons e2
    have ef := file_exec as2 h2 e4
    simp only [act] at e3
    split at e3
    · cases e3
    · rename_i bs hp
      simp only [Option.some.injEq, Prod.mk.injEq] at e3
      obtain ⟨kb, o, hk, ho, hb⟩ := hi.pend i bs hp
      have hf : w.file = write c (tEncode kb o) := by rw [ef, ← e3.1, ← hb]
      refine ⟨as1, i, as2, w1, rs1, kb, rfl, h2, e1, hk, ⟨o, ho, hf⟩, fun hfit => ?_⟩
      obtain ⟨kb', e, hs⟩ := (tDecode_tEncode hl kb o ho hfit []).2 (hasNil_of (hi.noNil i kb hk))
      rw [List.append_nil] at e
      have : load c limit w.file = kb' := by
        rw [hf]; simp only [load, hc _ (tEncode_ne_nil hl kb o ho hfit), e]
      rw [this]
      exact (contents_same hs).symm

/-- C182. One store alone: whenever it is not in a call and something has been written since it was loaded, a restart finds exactly what it holds. (With a `Faithful` compressor;
C40 is what happens with zlib.) -/
theorem C182_one_store (c : Codec) (hc : Faithful c) (limit : Nat) (hl : limit < 2 ^ 31) (digest : Bytes → Bytes) (file : Bytes)
    (as : List (Act 1)) (hg : Good as) (hload : .load 0 ∉ as) (w : World 1) (rs : List (Fin 1 × Op × Res))
    (h : exec c limit digest (init 1 file) (.load 0 :: as) = some (w, rs)) (hr : Rest w) (kb : KB) (hk : w.kb 0 = some kb) (hf : Fits limit kb) :
    ((∀ j, .write j ∉ as) ∧ w.file = file ∧ kb = load c limit file) ∨ contents (load c limit w.file) = contents kb := by
  obtain ⟨w0, r0, rs0, e0, h', _⟩ := exec_cons h
  simp only [act, init, Option.some.injEq, Prod.mk.injEq] at e0
  have hk0 : w0.kb 0 = some (load c limit file) := by rw [← e0.1]; rfl
  have hp0 : w0.pend 0 = none := by rw [← e0.1]
  have hf0 : w0.file = file := by rw [← e0.1]
  -- while nothing is pending, steps without write leave the bean
  have calm : ∀ (as : List (Act 1)) {v v' : World 1} {rs}, Good as → .load 0 ∉ as → (∀ j, .write j ∉ as) → v'.pend 0 = none →
      exec c limit digest v as = some (v', rs) → v'.kb 0 = v.kb 0 := by
    intro as
    induction as with
    | nil => intro v v' rs _ _ _ _ e; cases e; rfl
    | cons a as ih =>
      intro v v' rs hg hl hw hp e
      obtain ⟨v1, r, rs', e1, e2, _⟩ := exec_cons e
      rw [ih (fun i op pick hm => hg i op pick (by simp [hm])) (fun hm => hl (by simp [hm])) (fun j hm => hw j (by simp [hm])) hp e2]
      cases a with
      | load j => exact absurd (show Act.load 0 ∈ Act.load j :: as by rw [Subsingleton.elim j 0]; simp) hl
      | write j => exact absurd (show Act.write j ∈ Act.write j :: as by simp) (hw j)
      | call j op pick =>
        obtain rfl := Subsingleton.elim j 0
        have stuck : ∀ (as : List (Act 1)) {v v' : World 1} {rs}, (∀ j, .write j ∉ as) → exec c limit digest v as = some (v', rs) → v.pend 0 ≠ none → v'.pend 0 ≠ none := by
          intro as
          induction as with
          | nil => intro v v' rs _ e hv; cases e; exact hv
          | cons a as ih =>
            intro v v' rs hw e hv
            obtain ⟨v1, r, rs', e1, e2, _⟩ := exec_cons e
            cases a with
            | load j =>
              obtain rfl := Subsingleton.elim j 0
              simp only [act] at e1
              split at e1
              · exact absurd (by assumption) hv
              · cases e1
            | call j op pick =>
              obtain rfl := Subsingleton.elim j 0
              simp only [act] at e1
              split at e1
              · exact absurd (by assumption) hv
              · cases e1
            | write j => exact absurd (by simp) (hw j)
        have hp1 : v1.pend 0 = none := by
          by_contra hne
          exact stuck as (fun j hm => hw j (by simp [hm])) e2 hne hp
        simp only [act] at e1
        split at e1
        · simp only [Option.some.injEq, Prod.mk.injEq] at e1
          rw [← e1.1] at hp1 ⊢
          have hp1 : upd v.pend 0 (body digest pick (v.kb 0) op).2.2 0 = none := hp1
          show upd v.kb 0 (body digest pick (v.kb 0) op).2.1 0 = _
          rw [upd_same] at hp1 ⊢
          exact (body_out digest (hg 0 op pick (by simp)) (v.kb 0) op).2.2 hp1
        · cases e1
  have hgl : Good (.load 0 :: as) := fun i op pick hm => hg i op pick (by simpa using hm)
  rcases C182_last_writer_partial c hc limit hl digest 1 file _ hgl w rs h with ⟨hw, hfile⟩ | ⟨as1, i, as2, w1, rs1, kb1, e, h2, e1, hk1, _, hcont⟩
  · refine .inl ⟨fun j hm => hw j (by simp [hm]), hfile, ?_⟩
    have := calm as hg hload (fun j hm => hw j (by simp [hm])) (hr 0) h'
    rw [hk, hk0] at this
    exact Option.some.inj this
  · right
    obtain rfl := Subsingleton.elim i 0
    cases as1 with
    | nil => cases e
    | cons a as1 =>
      simp only [List.cons_append, List.cons.injEq] at e
      obtain ⟨rfl, rfl⟩ := e
      obtain ⟨w1', rs1', rs2', f1, f2, _⟩ := exec_append (.load 0 :: as1) _ h
      rw [e1] at f1
      cases f1
      obtain ⟨v, r, rs3, g1, g2, _⟩ := exec_cons f2
      have hv : v.kb 0 = w1.kb 0 := kb_act (a := .write 0) 0 (by simp) (by simp) g1
      have := calm as2 (fun i op pick hm => hg i op pick (by simp [hm])) (fun hm => hload (by simp [hm])) h2 (hr 0) g2
      rw [hk, hv, hk1] at this
      obtain rfl := Option.some.inj this
      exact hcont hf

/-- C182. What a store answers depends on its own calls only: between its loads it is four maps, whatever the other stores do at the same time. -/
theorem C182_own_calls (c : Codec) (limit : Nat) (digest : Bytes → Bytes) (m : Nat) (as2 : List (Act m)) (i : Fin m)
    (hg : Good (.load i :: as2)) (hno : .load i ∉ as2) (w1 : World m)
    (hfull : Full (load c limit w1.file)) (w2 : World m) (rs2 : List (Fin m × Op × Res)) (h2 : exec c limit digest w1 (.load i :: as2) = some (w2, rs2)) :
    Accepts (md5Str digest) (contents (load c limit w1.file)) ((ofStore i rs2).map Prod.fst) ((ofStore i rs2).map Prod.snd) := by
  obtain ⟨v, r, rs', e1, e2, e3⟩ := exec_cons h2
  simp only [act] at e1
  split at e1
  · simp only [Option.some.injEq, Prod.mk.injEq] at e1
    have hk : v.kb i = some (load c limit w1.file) := by rw [← e1.1]; exact upd_same _ _ _
    have := (accepts_exec i as2 (fun a ha => good_of hg a (by simp [ha])) hno hk (rep_contents hfull (load_noNil c limit w1.file)) e2).1
    rw [e3, ← e1.2]
    simpa [ofStore] using this
  · cases e1

/-- C182. Before `Load` every method panics and does nothing. -/
theorem C182_not_loaded (c : Codec) (limit : Nat) (digest : Bytes → Bytes) (m : Nat) (w : World m) (i : Fin m) (op : Op) (pick : KB → Orders)
    (hk : w.kb i = none) (hp : w.pend i = none) : act c limit digest w (.call i op pick) = some (w, some (i, op, .panic)) := by
  have : ∀ {α : Type} (f : Fin m → α) (x : α), f i = x → upd f i x = f := by
    intro α f x h
    funext j
    by_cases e : j = i
    · rw [e, upd_same, h]
    · exact upd_ne _ _ e
  simp only [act, hp, hk, body, this _ _ hk, this _ _ hp]

/-! ### The witness -/

/-- A codec that is complete without Flush or Close. -/
def plain : Codec where
  written x := 1 :: x
  flushed _ := []
  closed _ := []
  read
    | 1 :: x => some (x, true)
    | _ => none

theorem plain_faithful : Faithful plain := fun _ _ => rfl

/-- Two stores load the empty file; one puts the user "a", then the other the user "b". -/
def twoStores : List (Act 2) :=
  [.load 0, .load 1, .call 0 (.put .admin [97] [1] 1) anyPick, .write 0, .call 1 (.put .admin [98] [2] 2) anyPick, .write 1]

/-- The beans after it. -/
def beanOf (n : UInt8) (t : UInt8) : KB := setMap fresh .admin (AMap.empty.store [n] (some ⟨[n], [48, 55], t⟩))

theorem twoStores_run : ∃ w rs, exec plain 100 (fun _ => [7]) (init 2 []) twoStores = some (w, rs) ∧ Rest w ∧
    w.kb 0 = some (beanOf 97 1) ∧ w.kb 1 = some (beanOf 98 2) ∧ (0, .put .admin [97] [1] 1, .done) ∈ rs ∧
    w.file = write plain (tEncode (beanOf 98 2) (anyPick (beanOf 98 2))) := by
  refine ⟨_, _, rfl, ?_, rfl, rfl, ?_, rfl⟩
  · intro i
    match i with
    | 0 => rfl
    | 1 => rfl
  · exact List.mem_cons_self

theorem beanOf_fits (n t : UInt8) : Fits 100 (beanOf n t) := by
  constructor <;> intro m hm <;> simp only [beanOf, setMap, fresh, Option.some.injEq] at hm <;> subst hm
  · refine ⟨by simp [AMap.store, AMap.empty], fun p hp => ?_⟩
    simp [AMap.store, AMap.empty] at hp
    rcases hp with rfl; simp
  · exact ⟨by decide, by simp [AMap.empty]⟩
  · exact ⟨by decide, by simp [AMap.empty]⟩
  · exact ⟨by decide, by simp [AMap.empty]⟩

theorem twoStores_good : Good twoStores := by
  intro i op pick hm
  simp [twoStores] at hm
  rcases hm with ⟨_, _, rfl⟩ | ⟨_, _, rfl⟩ <;> exact anyPick_picks

/-- C182 is false: the second store's Put removes the first one's user from the file. -/
theorem C182_claim_false : ¬ C182_claim := by
  intro h
  obtain ⟨w, rs, e, hr, h0, h1, hm, hf⟩ := twoStores_run
  have := h plain plain_faithful 100 (by decide) (fun _ => [7]) 2 twoStores w rs twoStores_good (by intro i k n pick; simp [twoStores]) (by decide) e hr (by
    intro i kb hk
    match i with
    | 0 => rw [h0] at hk; rw [← Option.some.inj hk]; exact beanOf_fits _ _
    | 1 => rw [h1] at hk; rw [← Option.some.inj hk]; exact beanOf_fits _ _) 0 .admin [97] [1] 1 hm
  have hl : load plain 100 w.file = load plain 100 (write plain (tEncode (beanOf 98 2) (anyPick (beanOf 98 2)))) := by rw [hf]
  obtain ⟨kb', e', hs⟩ := (tDecode_tEncode (by decide) (beanOf 98 2) _ (anyPick_picks _) (beanOf_fits 98 2) []).2 (by
    rintro (⟨x, k, hx, hn⟩ | ⟨x, k, hx, hn⟩ | ⟨x, k, hx, hn⟩) <;> simp only [beanOf, setMap, fresh, Option.some.injEq] at hx <;> subst hx
    · rw [AMap.load_store] at hn; split at hn <;> simp at hn
    · simp at hn
    · simp at hn)
  rw [List.append_nil] at e'
  have hk : load plain 100 w.file = kb' := by
    rw [hl]
    simp only [load, plain_faithful _ (tEncode_ne_nil (limit := 100) (by decide) _ _ (anyPick_picks (beanOf 98 2)) (beanOf_fits 98 2)), e']
  rw [hk, ← contents_same hs] at this
  simp [contents, beanOf, setMap, mapOf, loadOf, AMap.load_store] at this

/-! ### Concrete cases -/

/-- A store in the middle of a call keeps out its own calls but not those of others. -/
example : (exec plain 100 (fun _ => [7]) (init 2 []) [.load 0, .load 1, .call 0 (.put .mq [97] [1] 1) anyPick, .call 0 (.getOther [1]) anyPick]).isNone = true := by decide +kernel
example : (exec plain 100 (fun _ => [7]) (init 2 []) [.load 0, .load 1, .call 0 (.put .mq [97] [1] 1) anyPick, .call 1 (.getOther [1]) anyPick]).isSome = true := by decide +kernel
example : Full (load plain 100 (init 2 []).file) := Props.KeyStore.full_fresh

end Gofer.Props.KeyStoreMany
