import Verif.Proof.KeyBeanInto
import Verif.Props.KeyBean
/-! # Property C196: `TDecode` into a bean that is in use -/
namespace Gofer.Props.KeyBeanInto
open Gofer.KeyBean Gofer.Thrift

/-- C196, as stated: after `TDecode(TEncode(kb), old)` the bean holds what `kb` held, whatever it held before; if there is an error, it is unchanged. -/
def C196_claim : Prop := ∀ (limit : Nat), limit < 2 ^ 31 → ∀ (kb old : KB) (o : Orders), ¬ HasNil kb → Fits limit kb → OrdersOf kb o →
  ((tDecodeInto limit old (tEncode kb o)).2 = true ∧ Same kb (tDecodeInto limit old (tEncode kb o)).1) ∧
  ∀ bs, (tDecodeInto limit old bs).2 = false → (tDecodeInto limit old bs).1 = old

/-- C196. It succeeds exactly on the bytes that can be read into a new bean. -/
theorem C196_same_success (limit : Nat) (old : KB) (bs : Bytes) : (tDecodeInto limit old bs).2 = (tDecode limit bs).isSome := by
  have := tDecodeInto_eq limit old bs
  cases h : tDecode limit bs with
  | none => rw [h] at this; exact this
  | some kb => rw [h] at this; simp only at this; rw [this]; rfl

/-- C196. A map that is in the bytes replaces the old one as a whole; a map that is not (it was nil when encoded) leaves the old one in place. -/
theorem C196_overlay (limit : Nat) (old kb : KB) (bs : Bytes) (h : tDecode limit bs = some kb) :
    (tDecodeInto limit old bs).1 = ⟨kb.admin.orElse fun _ => old.admin, kb.client.orElse fun _ => old.client, kb.mq.orElse fun _ => old.mq, kb.other.orElse fun _ => old.other⟩ := by
  have := tDecodeInto_eq limit old bs
  rw [h] at this
  simp only at this
  rw [this]
  rfl

theorem orElse_same {A : Type} {m m' old : Option (AMap Bytes A)} (h : sameMap m m') (hs : m.isSome ∨ old = none) : sameMap m (m'.orElse fun _ => old) := by
  cases m with
  | none =>
    rcases hs with hs | rfl
    · cases hs
    · cases m' with
      | none => trivial
      | some m' => exact h
  | some m =>
    cases m' with
    | none => exact absurd h (by simp [sameMap])
    | some m' => exact h

/-- C196, what holds: the round trip, if each map is non-nil in the encoded bean or nil in the one decoded into. So a bean that is made new for the call (as `Load` does) is always
right. Missing: nil maps decoded over maps in use, and errors. -/
theorem C196_roundtrip_partial (limit : Nat) (hl : limit < 2 ^ 31) (kb old : KB) (o : Orders) (hn : ¬ HasNil kb) (hf : Fits limit kb) (ho : OrdersOf kb o)
    (h1 : kb.admin.isSome ∨ old.admin = none) (h2 : kb.client.isSome ∨ old.client = none) (h3 : kb.mq.isSome ∨ old.mq = none) (h4 : kb.other.isSome ∨ old.other = none) :
    (tDecodeInto limit old (tEncode kb o)).2 = true ∧ Same kb (tDecodeInto limit old (tEncode kb o)).1 := by
  obtain ⟨kb', e, hs⟩ := (tDecode_tEncode hl kb o ho hf []).2 hn
  rw [List.append_nil] at e
  rw [C196_same_success, C196_overlay limit old kb' _ e, e]
  exact ⟨rfl, orElse_same hs.1 h1, orElse_same hs.2.1 h2, orElse_same hs.2.2.1 h3, orElse_same hs.2.2.2 h4⟩

/-- C196. After an error part of the bean may be new: here the first of two users has replaced the two old ones. -/
theorem C196_error_touches : ∃ (old : KB) (bs : Bytes), (tDecodeInto 100 old bs).2 = false ∧ (loadOf old.admin [1]).isSome = true ∧
    (loadOf (tDecodeInto 100 old bs).1.admin [1]).isSome = false ∧ (loadOf (tDecodeInto 100 old bs).1.admin [9]).isSome = true :=
  ⟨⟨some ((AMap.empty.store [1] none).store [2] none), none, none, none⟩, [27, 2, 140, 1, 9, 24, 1, 9, 24, 0, 19, 5, 0, 7], by decide +kernel⟩

/-- C196 is false: an empty bean leaves everything in place. -/
theorem C196_claim_false : ¬ C196_claim := by
  intro h
  have := (h 100 (by decide) ⟨none, none, none, none⟩ ⟨some (AMap.empty.store [1] none), none, none, none⟩ ⟨[], [], [], []⟩
    (by rintro (⟨m, k, hm, _⟩ | ⟨m, k, hm, _⟩ | ⟨m, k, hm, _⟩) <;> cases hm)
    (by constructor <;> intro m hm <;> cases hm) (by constructor <;> intro m hm <;> cases hm)).1.2.1
  have e : (tDecodeInto 100 ⟨some (AMap.empty.store [1] none), none, none, none⟩ (tEncode ⟨none, none, none, none⟩ ⟨[], [], [], []⟩)).1.admin =
    some (AMap.empty.store [1] none) := rfl
  rw [e] at this
  exact this

/-! ### Concrete case: a bean with all four maps, decoded over another one. -/

example : (tDecodeInto 100 ⟨some (AMap.empty.store [7] none), none, none, some (AMap.empty.store [8] [9])⟩ (tEncode KeyBean.sample KeyBean.sampleOrders)).2 = true ∧
    Same KeyBean.sample (tDecodeInto 100 ⟨some (AMap.empty.store [7] none), none, none, some (AMap.empty.store [8] [9])⟩ (tEncode KeyBean.sample KeyBean.sampleOrders)).1 :=
  C196_roundtrip_partial 100 (by decide) _ _ _ KeyBean.sample_noNil KeyBean.sample_fits KeyBean.sample_orders (by decide) (by decide) (by decide) (by decide)

end Gofer.Props.KeyBeanInto
