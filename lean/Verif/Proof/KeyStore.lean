import Verif.Spec.KeyStoreRel
import Verif.Proof.KeyBean

namespace Gofer.KeyStore
open Gofer.KeyBean Gofer.Compress Gofer.Thrift
open Gofer.Spec.KeyBean (User)
open Gofer.Spec.KeyStore
open Gofer.Spec.Codec (Codec Lawful HoldsBack)

theorem mapOf_setMap (kb : KB) (k k' : Kind) (x : UserMap) : mapOf (setMap kb k x) k' = if k' = k then some x else mapOf kb k' := by
  cases k <;> cases k' <;> rfl

theorem other_setMap (kb : KB) (k : Kind) (x : UserMap) : (setMap kb k x).other = kb.other := by cases k <;> rfl

theorem rep_fresh : Rep fresh Maps.empty :=
  ⟨fun k => ⟨AMap.empty, by cases k <;> rfl, fun _ => rfl⟩, ⟨AMap.empty, rfl, fun _ => rfl⟩⟩

theorem rep_setMap {kb : KB} {m m' : Maps} (h : Rep kb m) (k : Kind) (x : UserMap) (hx : ∀ n, x.load n = (m'.user k n).map some)
    (ho : m'.other = m.other) (hu : ∀ k', k' ≠ k → m'.user k' = m.user k') : Rep (setMap kb k x) m' := by
  constructor
  · intro k'
    rw [mapOf_setMap]
    by_cases hk : k' = k
    · rw [if_pos hk]; exact ⟨x, rfl, by rw [hk]; exact hx⟩
    · rw [if_neg hk, hu k' hk]; exact h.users k'
  · rw [other_setMap, ho]; exact h.others

theorem mapOf_other (kb : KB) (o : Option StrMap) (k : Kind) : mapOf { kb with other := o } k = mapOf kb k := by cases k <;> rfl

theorem rep_setOther {kb : KB} {m m' : Maps} (h : Rep kb m) (x : StrMap) (hx : ∀ n, x.load n = m'.other n)
    (hu : m'.user = m.user) : Rep { kb with other := some x } m' :=
  ⟨fun k => by rw [mapOf_other, hu]; exact h.users k, ⟨x, rfl, hx⟩⟩

theorem ordersOf_kind {kb : KB} {o : Orders} (h : OrdersOf kb o) (k : Kind) (x : UserMap) (hx : mapOf kb k = some x) :
    (orderOf o k).Perm x.entries := by
  cases k
  · exact h.admin x hx
  · exact h.client x hx
  · exact h.mq x hx

theorem step_spec (c : Codec) (digest : Bytes → Bytes) {pick : KB → Orders} (hp : Picks pick) (s : St) (m : Maps) (h : Rep s.kb m) (op : Op) :
    Answer m op (step c digest pick s op).1 ∧ Rep (step c digest pick s op).2.kb (next (md5Str digest) m op) ∧
      ((step c digest pick s op).2 = s ∨ (step c digest pick s op).2.file =
        write c (tEncode (step c digest pick s op).2.kb (pick (step c digest pick s op).2.kb))) := by
  cases op with
  | put k name pwd t =>
    obtain ⟨x, hx, hl⟩ := h.users k
    simp only [step, hx, save]
    refine ⟨rfl, rep_setMap h k _ (fun n => ?_) rfl (fun k' hk' => ?_), Or.inr (by first | trivial | rfl)⟩
    · rw [AMap.load_store]
      simp only [next, true_and]
      split <;> simp [hl]
    · funext n; simp [next, hk']
  | del k name =>
    obtain ⟨x, hx, hl⟩ := h.users k
    simp only [step, hx]
    split
    · refine ⟨rfl, rep_setMap h k _ (fun n => ?_) rfl (fun k' hk' => ?_), Or.inr rfl⟩
      · rw [AMap.load_delete]
        simp only [next, true_and]
        split <;> simp [hl]
      · funext n; simp [next, hk']
    · rename_i hn
      refine ⟨rfl, ?_, Or.inl rfl⟩
      have : next (md5Str digest) m (.del k name) = m := by
        simp only [next]
        have : (fun k' n' => if k' = k ∧ n' = name then none else m.user k' n') = m.user := by
          funext k' n'
          split
          · rename_i hc
            have h1 := hl name
            rw [hc.1, hc.2]
            cases hm : m.user k name with
            | none => rfl
            | some u => rw [hm] at h1; simp [h1] at hn
          · rfl
        rw [this]
      rw [this]; exact h
  | get k name =>
    obtain ⟨x, hx, hl⟩ := h.users k
    simp only [step, hx, loadOf, hl]
    cases hm : m.user k name with
    | none => exact ⟨by simp [Answer, hm], h, Or.inl rfl⟩
    | some u => exact ⟨by simp [Answer, hm], h, Or.inl rfl⟩
  | list k =>
    obtain ⟨x, hx, hl⟩ := h.users k
    simp only [step, hx]
    have hperm := ordersOf_kind (hp s.kb) k x hx
    refine ⟨⟨_, rfl, ?_, fun n => ?_⟩, h, Or.inl trivial⟩
    · exact (hperm.map Prod.fst).nodup_iff.2 x.nodup
    · rw [(hperm.map Prod.fst).mem_iff, ← AMap.load_isSome_iff, hl]; simp
  | putOther key value =>
    obtain ⟨x, hx, hl⟩ := h.others
    simp only [step, hx, save]
    refine ⟨rfl, rep_setOther h _ (fun n => ?_) rfl, Or.inr (by first | trivial | rfl)⟩
    rw [AMap.load_store]
    simp only [next]
    split <;> simp [hl]
  | delOther key =>
    obtain ⟨x, hx, hl⟩ := h.others
    simp only [step, hx]
    split
    · refine ⟨rfl, rep_setOther h _ (fun n => ?_) rfl, Or.inr rfl⟩
      rw [AMap.load_delete]
      simp only [next]
      split <;> simp [hl]
    · rename_i hn
      refine ⟨rfl, ?_, Or.inl rfl⟩
      have : next (md5Str digest) m (.delOther key) = m := by
        simp only [next]
        have : (fun n' => if n' = key then none else m.other n') = m.other := by
          funext n'
          split
          · rename_i hc
            have h1 := hl key
            rw [hc]
            cases hm : m.other key with
            | none => rfl
            | some u => rw [hm] at h1; simp [h1] at hn
          · rfl
        rw [this]
      rw [this]; exact h
  | getOther key =>
    obtain ⟨x, hx, hl⟩ := h.others
    simp only [step, hx, loadOf, hl]
    exact ⟨rfl, h, Or.inl trivial⟩

theorem run_spec (c : Codec) (digest : Bytes → Bytes) (hist : List (Op × (KB → Orders))) (hp : AllPicks hist) (s : St) (m : Maps)
    (h : Rep s.kb m) :
    Accepts (md5Str digest) m (hist.map Prod.fst) (run c digest s hist).1 ∧
      Rep (run c digest s hist).2.kb (after (md5Str digest) m (hist.map Prod.fst)) ∧
      ((run c digest s hist).2 = s ∨ ∃ o, OrdersOf (run c digest s hist).2.kb o ∧
        (run c digest s hist).2.file = write c (tEncode (run c digest s hist).2.kb o)) := by
  induction hist generalizing s m with
  | nil => exact ⟨trivial, h, Or.inl rfl⟩
  | cons x hist ih =>
    obtain ⟨op, pick⟩ := x
    have hpick : Picks pick := hp (op, pick) (by simp)
    have hs := step_spec c digest hpick s m h op
    obtain ⟨i1, i2, i3⟩ := ih (fun p hm => hp p (List.mem_cons_of_mem _ hm)) _ _ hs.2.1
    refine ⟨⟨hs.1, i1⟩, i2, ?_⟩
    change (run c digest (step c digest pick s op).2 hist).2 = s ∨ _
    rcases i3 with i3 | i3
    · rcases hs.2.2 with e | e
      · exact Or.inl (i3.trans e)
      · refine Or.inr ⟨pick (step c digest pick s op).2.kb, ?_, ?_⟩
        · change OrdersOf (run c digest (step c digest pick s op).2 hist).2.kb _
          rw [i3]; exact hpick _
        · change (run c digest (step c digest pick s op).2 hist).2.file = write c (tEncode (run c digest (step c digest pick s op).2 hist).2.kb _)
          rw [i3]; exact e
    · exact Or.inr i3

/-! ### What `Load` can yield -/

theorem readUsers_noNil {limit : Nat} (n : Nat) (m : UserMap) (bs : Bytes) (a r) (h : readUsers limit n m bs = some (a, r))
    (hm : ∀ k, m.load k ≠ some none) : ∀ k, a.load k ≠ some none := by
  induction n generalizing m bs with
  | zero => simp only [readUsers, Option.some.injEq, Prod.mk.injEq] at h; rw [← h.1]; exact hm
  | succ n ih =>
    simp only [readUsers] at h
    cases hk : readString limit bs with
    | none => simp [hk] at h
    | some q =>
      rw [hk] at h
      simp only at h
      cases hu : readUser limit q.2 with
      | none => simp [hu] at h
      | some q' =>
        rw [hu] at h
        refine ih _ _ h fun k => ?_
        rw [AMap.load_store]
        split
        · simp
        · exact hm k

theorem readUserField_noNil {limit : Nat} {bs : Bytes} {a r} (h : readUserField limit bs = some (a, r)) : ∀ k, a.load k ≠ some none := by
  unfold readUserField at h
  cases hb : readMapBegin limit bs with
  | none => simp [hb] at h
  | some q => rw [hb] at h; exact readUsers_noNil _ _ _ _ _ h fun k => by simp

theorem readKBLoop_noNil {limit : Nat} (fuel : Nat) (last : Int) (kb : KB) (bs : Bytes) (a r)
    (h : readKBLoop limit fuel last kb bs = some (a, r)) (hk : ∀ k x, mapOf kb k = some x → ∀ n, x.load n ≠ some none) :
    ∀ k x, mapOf a k = some x → ∀ n, x.load n ≠ some none := by
  induction fuel generalizing last kb bs with
  | zero => simp [readKBLoop] at h
  | succ fuel ih =>
    simp only [readKBLoop] at h
    cases hb : readFieldBegin last bs with
    | none => simp [hb] at h
    | some p =>
      obtain ⟨x, r'⟩ := p
      rw [hb] at h
      cases x with
      | none =>
        simp only [Option.some.injEq, Prod.mk.injEq] at h
        rw [← h.1]; exact hk
      | some x =>
        obtain ⟨t, id⟩ := x
        simp only at h
        have hset : ∀ k' m r'', readUserField limit r' = some (m, r'') → ∀ k x, mapOf (setMap kb k' m) k = some x → ∀ n, x.load n ≠ some none := by
          intro k' m r'' hm k x hx
          rw [mapOf_setMap] at hx
          split at hx
          · cases hx; exact readUserField_noNil hm
          · exact hk k x hx
        split at h
        · cases hf : readUserField limit r' with
          | none => simp [hf] at h
          | some q => rw [hf] at h; exact ih _ _ _ h (hset .admin q.1 q.2 hf)
        split at h
        · cases hf : readUserField limit r' with
          | none => simp [hf] at h
          | some q => rw [hf] at h; exact ih _ _ _ h (hset .client q.1 q.2 hf)
        split at h
        · cases hf : readUserField limit r' with
          | none => simp [hf] at h
          | some q => rw [hf] at h; exact ih _ _ _ h (hset .mq q.1 q.2 hf)
        split at h
        · cases hf : readStrField limit r' with
          | none => simp [hf] at h
          | some q =>
            rw [hf] at h
            refine ih _ _ _ h fun k x hx => ?_
            rw [mapOf_other] at hx; exact hk k x hx
        cases hf : skip limit maxDepth (some t) (decide (t = .bool)) r' with
        | none => simp [hf] at h
        | some q => rw [hf] at h; exact ih _ _ _ h hk

theorem tDecode_noNil {limit : Nat} {bs : Bytes} {kb : KB} (h : tDecode limit bs = some kb) :
    ∀ k x, mapOf kb k = some x → ∀ n, x.load n ≠ some none := by
  unfold tDecode at h
  cases hr : readKBLoop limit (bs.length + 1) 0 ⟨none, none, none, none⟩ bs with
  | none => simp [hr] at h
  | some p =>
    rw [hr] at h
    simp only [Option.map_some, Option.some.injEq] at h
    rw [← h]
    refine readKBLoop_noNil _ _ _ _ _ _ hr fun k x hx => ?_
    cases k <;> simp [mapOf] at hx

theorem rep_contents {kb : KB} (hf : Full kb) (hn : ∀ k x, mapOf kb k = some x → ∀ n, x.load n ≠ some none) : Rep kb (contents kb) := by
  constructor
  · intro k
    obtain ⟨x, hx⟩ := Option.isSome_iff_exists.1 (hf.1 k)
    refine ⟨x, hx, fun n => ?_⟩
    simp only [contents, hx, loadOf]
    have := hn k x hx n
    cases hl : x.load n with
    | none => rfl
    | some v =>
      cases v with
      | none => exact absurd hl this
      | some u => rfl
  · obtain ⟨x, hx⟩ := Option.isSome_iff_exists.1 hf.2
    exact ⟨x, hx, fun n => by simp [contents, hx, loadOf]⟩

theorem load_noNil (c : Codec) (limit : Nat) (file : Bytes) :
    ∀ k x, mapOf (load c limit file) k = some x → ∀ n, x.load n ≠ some none := by
  have hfresh : ∀ k x, mapOf fresh k = some x → ∀ n, x.load n ≠ some none := fun k x hx n => by
    have : x = AMap.empty := by cases k <;> simp [mapOf, fresh] at hx <;> exact hx.symm
    rw [this]; simp
  unfold load
  split
  · exact hfresh
  · split
    · rename_i hd; exact tDecode_noNil hd
    · exact hfresh

theorem rep_eq {kb : KB} {m : Maps} (h : Rep kb m) : contents kb = m := by
  obtain ⟨hu, ho⟩ := h
  obtain ⟨mu, mo⟩ := m
  simp only [contents, Maps.mk.injEq]
  constructor
  · funext k n
    obtain ⟨x, hx, hl⟩ := hu k
    simp only [hx, loadOf, hl]
    cases mu k n <;> rfl
  · funext n
    obtain ⟨x, hx, hl⟩ := ho
    simp only [hx, loadOf, hl]

theorem contents_same {kb kb' : KB} (h : Same kb kb') : contents kb = contents kb' := by
  have hm : ∀ {A : Type} {m m' : Option (AMap Bytes A)}, sameMap m m' → ∀ n, loadOf m n = loadOf m' n := by
    intro A m m' hs n
    cases m <;> cases m' <;> simp_all [sameMap, loadOf]
  simp only [contents, Maps.mk.injEq]
  constructor
  · funext k n
    cases k
    · simp only [mapOf, hm h.1]
    · simp only [mapOf, hm h.2.1]
    · simp only [mapOf, hm h.2.2.1]
  · funext n; rw [hm h.2.2.2]

theorem tEncode_ne_nil {limit : Nat} (hl : limit < 2 ^ 31) (kb : KB) (o : Orders) (ho : OrdersOf kb o) (hf : Fits limit kb) : tEncode kb o ≠ [] := by
  rw [tEncode_eq hl kb o ho hf]
  intro h
  have := fieldsLen_le 0 (fieldsOf kb o)
  rw [h] at this
  simp at this

/-- A strict prefix of an encoding does not decode. -/
theorem tDecode_tEncode_prefix {limit : Nat} (hl : limit < 2 ^ 31) (kb : KB) (o : Orders) (ho : OrdersOf kb o) (hf : Fits limit kb)
    (p : Bytes) (hp : p <+: tEncode kb o) (hne : p ≠ tEncode kb o) : tDecode limit p = none := by
  obtain ⟨s, hs⟩ := hp
  refine tDecode_prefix hl (fieldsOf kb o) (okFields_fieldsOf kb o ho hf) (shaped_fieldsOf kb o) p s ?_ ?_
  · rintro rfl; rw [List.append_nil] at hs; exact hne hs
  · rw [← tEncode_eq hl kb o ho hf, hs]

end Gofer.KeyStore
