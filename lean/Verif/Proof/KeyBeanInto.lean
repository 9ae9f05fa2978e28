import Verif.Model.KeyBeanInto
import Verif.Proof.KeyBean
/-! # Lemmas about `TDecode` into a bean in use -/
namespace Gofer.KeyBean
open Gofer.Thrift

/-- The fields of `new` where it has them, else those of `old`. -/
def overlay (old new : KB) : KB :=
  ⟨new.admin.orElse fun _ => old.admin, new.client.orElse fun _ => old.client, new.mq.orElse fun _ => old.mq, new.other.orElse fun _ => old.other⟩

theorem readUsersInto_eq (limit : Nat) (n : Nat) : ∀ (m : UserMap) (bs : Bytes),
    readUsers limit n m bs = (match readUsersInto limit n m bs with | (_, none) => none | (m, some r) => some (m, r)) := by
  induction n with
  | zero => intro m bs; rfl
  | succ n ih =>
    intro m bs
    simp only [readUsers, readUsersInto]
    cases readString limit bs with
    | none => rfl
    | some p =>
      obtain ⟨k, r⟩ := p
      simp only
      cases readUser limit r with
      | none => rfl
      | some q => obtain ⟨u, r⟩ := q; exact ih _ _

theorem readStrsInto_eq (limit : Nat) (n : Nat) : ∀ (m : StrMap) (bs : Bytes),
    readStrs limit n m bs = (match readStrsInto limit n m bs with | (_, none) => none | (m, some r) => some (m, r)) := by
  induction n with
  | zero => intro m bs; rfl
  | succ n ih =>
    intro m bs
    simp only [readStrs, readStrsInto]
    cases readString limit bs with
    | none => rfl
    | some p =>
      obtain ⟨k, r⟩ := p
      simp only
      cases readString limit r with
      | none => rfl
      | some q => obtain ⟨u, r⟩ := q; exact ih _ _

theorem readUserFieldInto_eq (limit : Nat) (old : Option UserMap) (bs : Bytes) :
    (readUserField limit bs = none ∧ (readUserFieldInto limit old bs).2 = none) ∨
    ∃ m r, readUserField limit bs = some (m, r) ∧ readUserFieldInto limit old bs = (some m, some r) := by
  unfold readUserField readUserFieldInto
  cases readMapBegin limit bs with
  | none => exact .inl ⟨rfl, rfl⟩
  | some p =>
    obtain ⟨⟨a, b, n⟩, r⟩ := p
    simp only
    rw [readUsersInto_eq]
    rcases readUsersInto limit n AMap.empty r with ⟨m, _ | r⟩
    · exact .inl ⟨rfl, rfl⟩
    · exact .inr ⟨m, r, rfl, rfl⟩

theorem readStrFieldInto_eq (limit : Nat) (old : Option StrMap) (bs : Bytes) :
    (readStrField limit bs = none ∧ (readStrFieldInto limit old bs).2 = none) ∨
    ∃ m r, readStrField limit bs = some (m, r) ∧ readStrFieldInto limit old bs = (some m, some r) := by
  unfold readStrField readStrFieldInto
  cases readMapBegin limit bs with
  | none => exact .inl ⟨rfl, rfl⟩
  | some p =>
    obtain ⟨⟨a, b, n⟩, r⟩ := p
    simp only
    rw [readStrsInto_eq]
    rcases readStrsInto limit n AMap.empty r with ⟨m, _ | r⟩
    · exact .inl ⟨rfl, rfl⟩
    · exact .inr ⟨m, r, rfl, rfl⟩

theorem readKBInto_eq (limit : Nat) (old : KB) (fuel : Nat) : ∀ (last : Int) (kb : KB) (bs : Bytes),
    match readKBLoop limit fuel last kb bs with
    | none => (readKBInto limit fuel last (overlay old kb) bs).2 = false
    | some (kb', _) => readKBInto limit fuel last (overlay old kb) bs = (overlay old kb', true) := by
  induction fuel with
  | zero => intro last kb bs; rfl
  | succ fuel ih =>
    intro last kb bs
    simp only [readKBLoop, readKBInto]
    cases readFieldBegin last bs with
    | none => rfl
    | some p =>
      obtain ⟨_ | ⟨t, id⟩, r⟩ := p
      · rfl
      simp only
      by_cases h1 : id = 1 ∧ t = .map
      · rw [if_pos h1, if_pos h1]
        rcases readUserFieldInto_eq limit (overlay old kb).admin r with ⟨e1, e2⟩ | ⟨m, r', e1, e2⟩
        · rw [e1]
          generalize readUserFieldInto limit (overlay old kb).admin r = x at e2
          obtain ⟨x1, x2⟩ := x
          cases e2; rfl
        · rw [e1, e2]; exact ih id { kb with admin := some m } r'
      rw [if_neg h1, if_neg h1]
      by_cases h2 : id = 2 ∧ t = .map
      · rw [if_pos h2, if_pos h2]
        rcases readUserFieldInto_eq limit (overlay old kb).client r with ⟨e1, e2⟩ | ⟨m, r', e1, e2⟩
        · rw [e1]
          generalize readUserFieldInto limit (overlay old kb).client r = x at e2
          obtain ⟨x1, x2⟩ := x
          cases e2; rfl
        · rw [e1, e2]; exact ih id { kb with client := some m } r'
      rw [if_neg h2, if_neg h2]
      by_cases h3 : id = 3 ∧ t = .map
      · rw [if_pos h3, if_pos h3]
        rcases readUserFieldInto_eq limit (overlay old kb).mq r with ⟨e1, e2⟩ | ⟨m, r', e1, e2⟩
        · rw [e1]
          generalize readUserFieldInto limit (overlay old kb).mq r = x at e2
          obtain ⟨x1, x2⟩ := x
          cases e2; rfl
        · rw [e1, e2]; exact ih id { kb with mq := some m } r'
      rw [if_neg h3, if_neg h3]
      by_cases h4 : id = 4 ∧ t = .map
      · rw [if_pos h4, if_pos h4]
        rcases readStrFieldInto_eq limit (overlay old kb).other r with ⟨e1, e2⟩ | ⟨m, r', e1, e2⟩
        · rw [e1]
          generalize readStrFieldInto limit (overlay old kb).other r = x at e2
          obtain ⟨x1, x2⟩ := x
          cases e2; rfl
        · rw [e1, e2]; exact ih id { kb with other := some m } r'
      rw [if_neg h4, if_neg h4]
      cases skip limit maxDepth (some t) (t = .bool) r with
      | none => rfl
      | some r => exact ih id kb r

theorem tDecodeInto_eq (limit : Nat) (old : KB) (bs : Bytes) :
    match tDecode limit bs with
    | none => (tDecodeInto limit old bs).2 = false
    | some kb => tDecodeInto limit old bs = (overlay old kb, true) := by
  have := readKBInto_eq limit old (bs.length + 1) 0 ⟨none, none, none, none⟩ bs
  have ho : overlay old ⟨none, none, none, none⟩ = old := rfl
  rw [ho] at this
  unfold tDecode tDecodeInto
  cases h : readKBLoop limit (bs.length + 1) 0 ⟨none, none, none, none⟩ bs with
  | none => rw [h] at this; exact this
  | some p => rw [h] at this; exact this

end Gofer.KeyBean
