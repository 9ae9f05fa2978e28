import Verif.Props.KeyStore
import Verif.Props.Digest

/-! # Credential store: which passwords fit a record (property C209) -/
namespace Gofer.Props.KeyPwd
open Gofer.KeyStore Gofer.KeyBean
open Gofer.Spec.KeyStore (Op Res Kind)
open Gofer.Spec.KeyBean (User)
open Gofer.Spec.Codec (Codec)
open Gofer.Digest (md5Sum)
open Gofer.Props.Digest (block1 block2 blocks C204_tail upperHex upperHex_inj toUpper_hex)

abbrev Bytes := List UInt8

/-- What a program does to check a password: it looks the user up and compares the record with `Md5Str` of the password. -/
def fits (r : Res) (pwd : Bytes) : Prop := ∃ u, r = .user (some u) ∧ u.pwd = Digest.md5Str pwd

theorem md5Str_eq (p : Bytes) : md5Str md5Sum p = Digest.md5Str p := by
  have : ∀ n, n < 16 → KeyStore.hexDigit n = (Digest.toUpper [Digest.hexDigit n]).getD 0 0 := by decide +kernel
  unfold md5Str Digest.md5Str Digest.hex
  induction md5Sum p with
  | nil => rfl
  | cons a r ih =>
    have h := a.toNat_lt
    rw [List.flatMap_cons, ih, this _ (by omega), this _ (by omega)]
    simp [Digest.toUpper]

/-- What is returned for a user right after the password was put. -/
theorem got (c : Codec) (pick pick' : KB → Orders) (s : St) (k : Kind) (n p : Bytes) (t : UInt8)
    (h : (step c md5Sum pick s (.put k n p t)).1 = .done) :
    (step c md5Sum pick' (step c md5Sum pick s (.put k n p t)).2 (.get k n)).1 = .user (some ⟨n, Digest.md5Str p, t⟩) := by
  cases hm : mapOf s.kb k with
  | none => simp [step, hm] at h
  | some m =>
    have e : (step c md5Sum pick s (.put k n p t)).2.kb = setMap s.kb k (m.store n (some ⟨n, md5Str md5Sum p, t⟩)) := by
      simp only [step, hm, save]
    simp only [step] at *
    simp only [hm] at *
    have e2 : mapOf (save c pick (setMap s.kb k (m.store n (some ⟨n, md5Str md5Sum p, t⟩)))).kb k = some (m.store n (some ⟨n, md5Str md5Sum p, t⟩)) := by
      rw [e, mapOf_setMap, if_pos rfl]
    rw [e2]
    simp [loadOf, AMap.load_store, md5Str_eq]

theorem md5Str_inj {p q : Bytes} : Digest.md5Str q = Digest.md5Str p ↔ md5Sum q = md5Sum p := by
  constructor
  · intro h
    exact upperHex_inj (by simpa only [Digest.md5Str, toUpper_hex] using h)
  · intro h
    simp only [Digest.md5Str, h]

/-- C209 at full strength: right after a password was put, this password fits the record and no other does. -/
def C209_claim : Prop := ∀ (c : Codec) (pick pick' : KB → Orders) (s : St) (k : Kind) (n p q : Bytes) (t : UInt8),
  (step c md5Sum pick s (.put k n p t)).1 = .done →
  (fits (step c md5Sum pick' (step c md5Sum pick s (.put k n p t)).2 (.get k n)).1 q ↔ q = p)

/-- C209, as far as it holds: the passwords that fit are those with the same MD5. Missing: that there is only one. -/
theorem C209_fits_partial (c : Codec) (pick pick' : KB → Orders) (s : St) (k : Kind) (n p q : Bytes) (t : UInt8)
    (h : (step c md5Sum pick s (.put k n p t)).1 = .done) :
    fits (step c md5Sum pick' (step c md5Sum pick s (.put k n p t)).2 (.get k n)).1 q ↔ md5Sum q = md5Sum p := by
  rw [got c pick pick' s k n p t h]
  constructor
  · rintro ⟨u, hu, hq⟩
    obtain rfl : User.mk n (Digest.md5Str p) t = u := by simpa using hu
    exact md5Str_inj.1 hq.symm
  · intro hq
    exact ⟨_, rfl, md5Str_inj.2 hq.symm⟩

/-- C209: the password that was put fits. -/
theorem C209_right (c : Codec) (pick pick' : KB → Orders) (s : St) (k : Kind) (n p : Bytes) (t : UInt8)
    (h : (step c md5Sum pick s (.put k n p t)).1 = .done) :
    fits (step c md5Sum pick' (step c md5Sum pick s (.put k n p t)).2 (.get k n)).1 p :=
  (C209_fits_partial c pick pick' s k n p p t h).2 rfl

/-- C209: for every ending there are two different passwords with this ending of which each fits where the other was put. -/
theorem C209_other (e : Bytes) : ∃ p q : Bytes, p ≠ q ∧ e <:+ p ∧ e <:+ q ∧
    ∀ (c : Codec) (pick pick' : KB → Orders) (s : St) (k : Kind) (n : Bytes) (t : UInt8), (step c md5Sum pick s (.put k n p t)).1 = .done →
      fits (step c md5Sum pick' (step c md5Sum pick s (.put k n p t)).2 (.get k n)).1 q :=
  ⟨block1 ++ e, block2 ++ e, (C204_tail e).1, ⟨_, rfl⟩, ⟨_, rfl⟩, fun c pick pick' s k n t h =>
    (C209_fits_partial c pick pick' s k n _ _ t h).2 (C204_tail e).2.1.symm⟩

/-- C209 at full strength is false. -/
theorem C209_claim_false : ¬ C209_claim := by
  intro h
  obtain ⟨p, q, hne, _, _, hall⟩ := C209_other []
  have hd : (step Props.Compress.toy md5Sum Props.KeyStore.anyPick ⟨fresh, []⟩ (.put .admin [97] p 1)).1 = .done := rfl
  exact hne ((h Props.Compress.toy Props.KeyStore.anyPick Props.KeyStore.anyPick ⟨fresh, []⟩ .admin [97] p q 1 hd).1
    (hall _ _ _ _ _ _ _ hd)).symm

/-- C209: records are not salted. Whoever sees two records, of whatever users, sees whether their passwords have the same MD5. -/
theorem C209_unsalted (c : Codec) (pick₁ pick₁' pick₂ pick₂' : KB → Orders) (s₁ s₂ : St) (k₁ k₂ : Kind) (n₁ n₂ p₁ p₂ : Bytes) (t₁ t₂ : UInt8)
    (h₁ : (step c md5Sum pick₁ s₁ (.put k₁ n₁ p₁ t₁)).1 = .done) (h₂ : (step c md5Sum pick₂ s₂ (.put k₂ n₂ p₂ t₂)).1 = .done) :
    ∃ u₁ u₂, (step c md5Sum pick₁' (step c md5Sum pick₁ s₁ (.put k₁ n₁ p₁ t₁)).2 (.get k₁ n₁)).1 = .user (some u₁) ∧
      (step c md5Sum pick₂' (step c md5Sum pick₂ s₂ (.put k₂ n₂ p₂ t₂)).2 (.get k₂ n₂)).1 = .user (some u₂) ∧
      (u₁.pwd = u₂.pwd ↔ md5Sum p₁ = md5Sum p₂) :=
  ⟨_, _, got c pick₁ pick₁' s₁ k₁ n₁ p₁ t₁ h₁, got c pick₂ pick₂' s₂ k₂ n₂ p₂ t₂ h₂, md5Str_inj⟩

-- A new store takes passwords; the record of "abc".
example : (step Props.Compress.toy md5Sum Props.KeyStore.anyPick ⟨fresh, []⟩ (.put .admin [97] [97, 98, 99] 1)).1 = .done := rfl
example : (step Props.Compress.toy md5Sum Props.KeyStore.anyPick
      (step Props.Compress.toy md5Sum Props.KeyStore.anyPick ⟨fresh, []⟩ (.put .admin [97] [97, 98, 99] 1)).2 (.get .admin [97])).1 =
    .user (some ⟨[97], "900150983CD24FB0D6963F7D28E17F72".toUTF8.toList, 1⟩) := by
  rw [got _ _ _ _ _ _ _ _ rfl]
  have : Digest.md5Str [97, 98, 99] = "900150983CD24FB0D6963F7D28E17F72".toUTF8.toList := by decide +kernel
  rw [this]

end Gofer.Props.KeyPwd
