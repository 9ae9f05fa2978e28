import Verif.Model.UuidMany
import Verif.Proof.Uuid
import Mathlib.Data.Fintype.BigOperators
import Mathlib.Data.Fintype.Prod
import Mathlib.Algebra.BigOperators.Ring.Finset
import Mathlib.Algebra.Order.BigOperators.Group.Finset
import Mathlib.Tactic.Ring
import Mathlib.Tactic.Linarith
/-! # UUIDs of several processes: helper lemmas -/
namespace Gofer.Uuid
open Gofer.Num Gofer.Spec.Uuid Gofer.Spec.Num

/-- The value of a generated UUID. -/
theorem mk_value (h q : BitVec 64) :
    beValue (mk h q) = (h.toNat / 2 ^ 16 * 2 ^ 16 + 2 ^ 14 + h.toNat % 2 ^ 12) * 2 ^ 64 + (2 ^ 63 + q.toNat % 2 ^ 62) := by
  obtain ⟨a0, a1, a2, a3, a4, a5, a6, a7, c0, c1, c2, c3, c4, c5, c6, c7, hh, hq, hm⟩ := mk_eq h q
  rw [hm, show [a0, a1, a2, a3, a4, a5, (a6 &&& 0x0f) ||| 0x40, a7, (c0 &&& 0x3f) ||| 0x80, c1, c2, c3, c4, c5, c6, c7] =
    ([a0, a1, a2, a3, a4, a5] ++ [(a6 &&& 0x0f) ||| 0x40, a7]) ++ (((c0 &&& 0x3f) ||| 0x80) :: [c1, c2, c3, c4, c5, c6, c7]) from rfl, beValue_append, beValue_append,
    beValue_cons ((c0 &&& 0x3f) ||| 0x80)]
  have v := beValue_int64 h
  rw [hh, show [a0, a1, a2, a3, a4, a5, a6, a7] = [a0, a1, a2, a3, a4, a5] ++ [a6, a7] from rfl, beValue_append] at v
  have w := beValue_int64 q
  rw [hq, beValue_cons] at w
  have l7 := a7.toNat_lt
  have l6 := a6.toNat_lt
  have l0 := c0.toNat_lt
  have lt := beValue_lt [c1, c2, c3, c4, c5, c6, c7]
  have e2 : beValue [a6, a7] = a6.toNat * 256 + a7.toNat := by simp [beValue_cons, beValue_nil]
  have e3 : beValue [(a6 &&& 0x0f) ||| 0x40, a7] = (a6.toNat % 16 + 64) * 256 + a7.toNat := by
    simp only [beValue_cons, beValue_nil, mask0f, List.length_cons, List.length_nil]; omega
  rw [e2] at v
  rw [e3, mask3f]
  simp only [List.length_cons, List.length_nil] at v w lt ⊢
  generalize beValue [a0, a1, a2, a3, a4, a5] = x at v ⊢
  generalize beValue [c1, c2, c3, c4, c5, c6, c7] = z at w lt ⊢
  generalize h.toNat = y at v ⊢
  generalize q.toNat = u at w ⊢
  generalize a6.toNat = p at *
  generalize a7.toNat = r at *
  generalize c0.toNat = c at *
  norm_num at v w lt
  have v' : x * 65536 + (p * 256 + r) = y := v
  have y1 : y / 2 ^ 16 = x := by norm_num; omega
  have y2 : y % 2 ^ 12 = p % 16 * 256 + r := by norm_num; omega
  have u1 : u % 2 ^ 62 = c % 64 * 72057594037927936 + z := by norm_num; omega
  rw [y1, y2, u1]
  clear v v' w y1 y2 u1
  generalize p % 16 = m
  generalize c % 64 = k
  norm_num
  omega

theorem length_mk (h q : BitVec 64) : (mk h q).length = 16 := by simp [mk, length_int64ToBytes]

/-- Two generated UUIDs are the same exactly if the hash values agree outside the version and the sequence numbers in the low 62 bits. -/
theorem mk_same (h h' q q' : BitVec 64) : mk h q = mk h' q' ↔
    h.toNat / 2 ^ 16 = h'.toNat / 2 ^ 16 ∧ h.toNat % 2 ^ 12 = h'.toNat % 2 ^ 12 ∧ q.toNat % 2 ^ 62 = q'.toNat % 2 ^ 62 := by
  constructor
  · intro e
    have e := congrArg beValue e
    rw [mk_value, mk_value] at e
    norm_num at e ⊢
    omega
  · rintro ⟨e1, e2, e3⟩
    apply beValue_inj _ _ (by rw [length_mk, length_mk])
    rw [mk_value, mk_value, e1, e2, e3]

/-- The hash values that give a UUID. -/
theorem hashes_of (h q q' : BitVec 64) (hq : q'.toNat % 2 ^ 62 = q.toNat % 2 ^ 62) :
    (Finset.univ.filter fun x : Word => mk (BitVec.ofFin x) q' = mk h q).card = 16 := by
  have hl := h.isLt
  have key : (Finset.univ.filter fun x : Word => mk (BitVec.ofFin x) q' = mk h q) =
      (Finset.range 16).attach.image fun k => (⟨h.toNat / 2 ^ 16 * 2 ^ 16 + k.1 * 2 ^ 12 + h.toNat % 2 ^ 12, by
        have := Finset.mem_range.1 k.2
        omega⟩ : Word) := by
    ext x
    simp only [Finset.mem_filter, Finset.mem_univ, true_and, Finset.mem_image, Finset.mem_attach, mk_same]
    have hx : (BitVec.ofFin x).toNat = x.val := rfl
    rw [hx]
    have := x.isLt
    constructor
    · rintro ⟨e1, e2, _⟩
      refine ⟨⟨x.val / 2 ^ 12 % 16, Finset.mem_range.2 (Nat.mod_lt _ (by decide))⟩, ?_⟩
      apply Fin.ext
      show h.toNat / 2 ^ 16 * 2 ^ 16 + x.val / 2 ^ 12 % 16 * 2 ^ 12 + h.toNat % 2 ^ 12 = x.val
      omega
    · rintro ⟨k, e⟩
      have hk := Finset.mem_range.1 k.2
      have e := congrArg Fin.val e
      have e : h.toNat / 2 ^ 16 * 2 ^ 16 + k.1 * 2 ^ 12 + h.toNat % 2 ^ 12 = x.val := e
      refine ⟨by omega, by omega, hq⟩
  rw [key, Finset.card_image_of_injective, Finset.card_attach, Finset.card_range]
  intro a b e
  have e := congrArg Fin.val e
  have e : h.toNat / 2 ^ 16 * 2 ^ 16 + a.1 * 2 ^ 12 + h.toNat % 2 ^ 12 = h.toNat / 2 ^ 16 * 2 ^ 16 + b.1 * 2 ^ 12 + h.toNat % 2 ^ 12 := e
  apply Subtype.ext
  omega

/-- Functions with a value at one place out of a set. -/
theorem count_fn {α β : Type} [Fintype α] [DecidableEq α] [Fintype β] [DecidableEq β] (a : α) (T : Finset β) :
    (Finset.univ.filter fun f : α → β => f a ∈ T).card * Fintype.card β = T.card * Fintype.card (α → β) := by
  have e : (Finset.univ.filter fun f : α → β => f a ∈ T) = Fintype.piFinset fun x => if x = a then T else Finset.univ := by
    ext f
    simp only [Finset.mem_filter, Finset.mem_univ, true_and, Fintype.mem_piFinset]
    constructor
    · intro h x
      split
      · rename_i hx; rw [hx]; exact h
      · exact Finset.mem_univ _
    · intro h
      have := h a
      rwa [if_pos rfl] at this
  rw [e, Fintype.card_piFinset, Fintype.card_fun, ← Finset.mul_prod_erase _ _ (Finset.mem_univ a), if_pos rfl]
  have e2 : ∏ x ∈ Finset.univ.erase a, (if x = a then T else Finset.univ : Finset β).card = Fintype.card β ^ (Fintype.card α - 1) := by
    rw [Finset.prod_congr rfl (g := fun _ => Fintype.card β)]
    · rw [Finset.prod_const, Finset.card_erase_of_mem (Finset.mem_univ a), Finset.card_univ]
    · intro x hx
      rw [if_neg (Finset.ne_of_mem_erase hx)]
      rfl
  rw [e2, Nat.mul_assoc, ← Nat.pow_succ]
  have : 0 < Fintype.card α := Fintype.card_pos_iff.2 ⟨a⟩
  rw [Nat.succ_eq_add_one, Nat.sub_add_cancel this]

theorem sixteenth {x y N M : Nat} (h : x * N = 16 * y) (e : N = 16 * M) : x * M = y := by
  rw [e] at h
  have : 16 * (x * M) = 16 * y := by rw [← h]; ring
  omega

/-- The number of hash functions that give a UUID at a sequence number. -/
theorem count_hash (h q q' : BitVec 64) (hq : q'.toNat % 2 ^ 62 = q.toNat % 2 ^ 62) :
    (Finset.univ.filter fun H : HashFn => mk (H.val q') q' = mk h q).card * 2 ^ 60 = Fintype.card HashFn := by
  have c := count_fn (α := Word) (β := Word) q'.toFin (Finset.univ.filter fun x : Word => mk (BitVec.ofFin x) q' = mk h q)
  rw [hashes_of h q q' hq, Fintype.card_fin] at c
  have e : (Finset.univ.filter fun f : HashFn => f q'.toFin ∈ (Finset.univ.filter fun x : Word => mk (BitVec.ofFin x) q' = mk h q)) =
      Finset.univ.filter fun H : HashFn => mk (H.val q') q' = mk h q := by
    apply Finset.filter_congr
    intro f _
    simp only [Finset.mem_filter, Finset.mem_univ, true_and]
    rfl
  rw [e] at c
  have d := sixteenth c (show 2 ^ 64 = 16 * 1152921504606846976 by norm_num)
  rw [show (2 : Nat) ^ 60 = 1152921504606846976 by norm_num]
  exact d

/-! ### Executions -/

/-- What a process has in hand. -/
structure Own {n : Nat} (q0 : BitVec 64) (H : HashFn) (k : Nat) (s : St n) : Prop where
  seq : s.seq = q0 + BitVec.ofNat 64 k
  held : ∀ t q, s.held t = some q → ∃ i, 1 ≤ i ∧ i ≤ k ∧ q = q0 + BitVec.ofNat 64 i
  out : ∀ u ∈ s.out, ∃ i, 1 ≤ i ∧ i ≤ k ∧ u = mk (H.val (q0 + BitVec.ofNat 64 i)) (q0 + BitVec.ofNat 64 i)

theorem own_exec {n : Nat} {q0 : BitVec 64} {H : HashFn} (as : List (Act n)) {k : Nat} {s s' : St n} (O : Own q0 H k s) (hh : Hashed H s as)
    (he : exec s as = some s') : Own q0 H (k + starts as) s' := by
  induction as generalizing k s with
  | nil => simp only [exec, Option.some.injEq] at he; subst he; exact O
  | cons a as ih =>
    simp only [exec] at he
    cases a with
    | add t =>
      cases ht : s.held t with
      | some q => simp [act, ht] at he
      | none =>
        simp only [Hashed, act, ht] at hh he
        have hs : s.seq + 1 = q0 + BitVec.ofNat 64 (k + 1) := by
          rw [O.seq, BitVec.ofNat_add, BitVec.add_assoc]; rfl
        have := ih (k := k + 1) ⟨hs, ?_, ?_⟩ hh.2 he
        · show Own q0 H (k + (starts as + 1)) s'
          rwa [show k + (starts as + 1) = k + 1 + starts as by omega]
        · intro t' q e
          dsimp only at e
          split at e
          · simp only [Option.some.injEq] at e
            exact ⟨k + 1, by omega, by omega, by rw [← e, hs]⟩
          · obtain ⟨i, a, b, c⟩ := O.held t' q e
            exact ⟨i, a, by omega, c⟩
        · intro u hu
          obtain ⟨i, a, b, c⟩ := O.out u hu
          exact ⟨i, a, by omega, c⟩
    | finish t h =>
      cases ht : s.held t with
      | none => simp [act, ht] at he
      | some q =>
        simp only [Hashed, act, ht] at hh he
        obtain ⟨i, a, b, c⟩ := O.held t q ht
        refine ih (k := k) (s := { s with held := fun i => if i = t then none else s.held i, out := mk h q :: s.out }) ⟨O.seq, ?_, ?_⟩ hh.2 he
        · intro t' q' e
          dsimp only at e
          split at e
          · cases e
          · exact O.held t' q' e
        · intro u hu
          rcases List.mem_cons.1 hu with e | hu
          · refine ⟨i, a, b, ?_⟩
            rw [e, hh.1 q rfl, ← c]
          · exact O.out u hu

theorem own_init (n : Nat) (q0 : BitVec 64) (H : HashFn) : Own q0 H 0 (init n q0) :=
  ⟨by simp [init], by simp [init], by simp [init]⟩

/-- What a process has returned, whatever the hash values. -/
theorem out_of {n : Nat} {q0 : BitVec 64} {as : List (Act n)} {s : St n} (he : exec (init n q0) as = some s) :
    s.out.length ≤ starts as ∧ ∀ u ∈ s.out, ∃ h i, 1 ≤ i ∧ i ≤ starts as ∧ u = mk h (q0 + BitVec.ofNat 64 i) := by
  obtain ⟨tags, idx, I⟩ := inv_exec q0 as 0 (init n q0) s [] _ (inv_init n q0) he
  rw [Nat.zero_add] at I
  constructor
  · rw [I.out.length_eq]
    have hn : (tags.map fun i => i - 1).Nodup := by
      refine (List.nodup_map_iff_inj_on I.nodup).2 ?_
      intro a ha b hb e
      have := (I.le a ha).1
      have := (I.le b hb).1
      omega
    have := nodup_length_le (tags.map fun i => i - 1) hn (starts as) (by
      intro x hx
      obtain ⟨a, ha, rfl⟩ := List.mem_map.1 hx
      have := I.le a ha
      omega)
    simpa using this
  · intro u hu
    have : ∀ (out : List Bytes) (tags : List Nat), List.Forall₂ (fun u i => ∃ h, u = mk h (q0 + BitVec.ofNat 64 i)) out tags → u ∈ out →
        ∃ i ∈ tags, ∃ h, u = mk h (q0 + BitVec.ofNat 64 i) := by
      intro out tags f
      induction f with
      | nil => intro h; cases h
      | cons a _ ih =>
        intro h
        rcases List.mem_cons.1 h with e | h
        · subst e; exact ⟨_, List.mem_cons_self .., a⟩
        · obtain ⟨i, hi, x⟩ := ih h
          exact ⟨i, List.mem_cons_of_mem _ hi, x⟩
    obtain ⟨i, hi, h, e⟩ := this _ _ I.out hu
    exact ⟨h, i, (I.le i hi).1, (I.le i hi).2, e⟩

end Gofer.Uuid
