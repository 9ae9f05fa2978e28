import Verif.Proof.UuidMany
/-!
# UUIDs of several processes (C263)

A process starts its sequence at some number (`Intn(1<<60 - 1)`, uuid/uuid.go:126), and its calls interleave in any way (`exec`). Its hash values are those of a function of
the sequence number (`Hashed`).
-/
namespace Gofer.Props.UuidMany
open Gofer.Uuid

/-- **C263, the claim**: no UUID of one process is a UUID of another one, whatever the hash values. -/
def C263_claim : Prop := ∀ (n n' : Nat) (q q' : BitVec 64) (as : List (Act n)) (as' : List (Act n')) (s : St n) (s' : St n'),
  exec (init n q) as = some s → exec (init n' q') as' = some s' → ∀ u ∈ s.out, u ∉ s'.out

/-- It is false: processes that start at 7 and at 8 return the same UUID, if the hash values agree. -/
theorem C263_claim_false : ¬ C263_claim := by
  intro h
  have key : ((exec (init 1 7) [.add 0, .add 0]).isNone ∧ (exec (init 1 7) [.add 0, .finish 0 5, .add 0, .finish 0 6]).map (·.out) = some [mk 6 9, mk 5 8]) ∧
      (exec (init 1 8) [.add 0, .finish 0 6]).map (·.out) = some [mk 6 9] := by decide +kernel
  obtain ⟨⟨_, k1⟩, k2⟩ := key
  obtain ⟨s, e1, o1⟩ := Option.map_eq_some_iff.1 k1
  obtain ⟨s', e2, o2⟩ := Option.map_eq_some_iff.1 k2
  exact h 1 1 7 8 _ _ s s' e1 e2 (mk 6 9) (by rw [o1]; simp) (by rw [o2]; simp)

/-- **C263, when two UUIDs are the same**: exactly if the sequence numbers agree in their low 62 bits and the hash values in all bits but the four of the version. -/
theorem C263_same (h h' q q' : BitVec 64) : mk h q = mk h' q' ↔
    h.toNat / 2 ^ 16 = h'.toNat / 2 ^ 16 ∧ h.toNat % 2 ^ 12 = h'.toNat % 2 ^ 12 ∧ q.toNat % 2 ^ 62 = q'.toNat % 2 ^ 62 := mk_same h h' q q'

example : mk 0x0123456789ab0def 9 = mk 0x0123456789abfdef 0x4000000000000009 := by decide +kernel

/-- **C263, processes far apart**: if one process has made fewer calls than lie between the starts of the two, and the other does not come round to it, no UUID of one is
a UUID of the other, whatever the hash values. -/
theorem C263_apart_partial {n n' : Nat} {q q' : BitVec 64} {as : List (Act n)} {as' : List (Act n')} {s : St n} {s' : St n'}
    (he : exec (init n q) as = some s) (he' : exec (init n' q') as' = some s') (h1 : q.toNat + starts as ≤ q'.toNat)
    (h2 : q'.toNat + starts as' ≤ q.toNat + 2 ^ 62) : ∀ u ∈ s.out, u ∉ s'.out := by
  intro u hu hu'
  obtain ⟨h, i, a, b, e⟩ := (out_of he).2 u hu
  obtain ⟨h', j, a', b', e'⟩ := (out_of he').2 u hu'
  have := ((mk_same _ _ _ _).1 (e.symm.trans e')).2.2
  have l := q.isLt
  have l' := q'.isLt
  rw [BitVec.toNat_add, BitVec.toNat_add, BitVec.toNat_ofNat, BitVec.toNat_ofNat] at this
  norm_num at *
  omega

/-- **C263, one call**: of all functions that may give the hash values of a process, exactly one in 2^60 gives, at a sequence number that agrees, a UUID of another
process. -/
theorem C263_one (h q q' : BitVec 64) (hq : q'.toNat % 2 ^ 62 = q.toNat % 2 ^ 62) :
    (Finset.univ.filter fun H : HashFn => mk (H.val q') q' = mk h q).card * 2 ^ 60 = Fintype.card HashFn := count_hash h q q' hq

open Classical in
/-- **C263, how likely it is**: let a process have made UUIDs, in any way; let another one start at a number out of a set `S` and have hash values of some function. The
pairs of a start and a function for which the other process can return one of these UUIDs within `m` calls, in any interleaving, are at most a fraction of
(calls of the first) · `m` / (|S| · 2^60) of all of them. So if all starts of `S` and all functions are equally likely, this bounds the chance. -/
theorem C263_chance_partial {n : Nat} {q : BitVec 64} {as : List (Act n)} {s : St n} (he : exec (init n q) as = some s) (S : Finset Word)
    (hS : ∀ x ∈ S, x.val < 2 ^ 60) (m : Nat) :
    ((S ×ˢ (Finset.univ : Finset HashFn)).filter fun p => ∃ (n' : Nat) (as' : List (Act n')) (s' : St n'), exec (init n' (BitVec.ofFin p.1)) as' = some s' ∧
      Hashed p.2 (init n' (BitVec.ofFin p.1)) as' ∧ starts as' ≤ m ∧ ∃ u ∈ s.out, u ∈ s'.out).card * (S.card * 2 ^ 60) ≤
    starts as * m * (S ×ˢ (Finset.univ : Finset HashFn)).card := by
  obtain ⟨hlen, hout⟩ := out_of he
  -- the pairs that give `u` with the call number `j`
  let Bad : Bytes × Nat → Finset (Word × HashFn) := fun c => (S ×ˢ Finset.univ).filter fun p =>
    mk (p.2.val (BitVec.ofFin p.1 + BitVec.ofNat 64 (c.2 + 1))) (BitVec.ofFin p.1 + BitVec.ofNat 64 (c.2 + 1)) = c.1
  have one : ∀ c ∈ s.out.toFinset ×ˢ Finset.range m, (Bad c).card * 2 ^ 60 ≤ Fintype.card HashFn := by
    rintro ⟨u, j⟩ hc
    obtain ⟨h, i, _, _, e⟩ := hout u (List.mem_toFinset.1 (Finset.mem_product.1 hc).1)
    by_cases hn : Bad (u, j) = ∅
    · rw [hn]; simp
    · obtain ⟨p, hp⟩ := Finset.nonempty_iff_ne_empty.2 hn
      obtain ⟨hp1, hp2⟩ := Finset.mem_filter.1 hp
      have hp2 : mk (p.2.val (BitVec.ofFin p.1 + BitVec.ofNat 64 (j + 1))) (BitVec.ofFin p.1 + BitVec.ofNat 64 (j + 1)) = u := hp2
      have sub : (Bad (u, j)).card ≤ (Finset.univ.filter fun H : HashFn => mk (H.val (BitVec.ofFin p.1 + BitVec.ofNat 64 (j + 1)))
          (BitVec.ofFin p.1 + BitVec.ofNat 64 (j + 1)) = u).card := by
        have start : ∀ r ∈ Bad (u, j), r.1 = p.1 := by
          intro r hr
          obtain ⟨hr1, hr2⟩ := Finset.mem_filter.1 hr
          have hr2 : mk (r.2.val (BitVec.ofFin r.1 + BitVec.ofNat 64 (j + 1))) (BitVec.ofFin r.1 + BitVec.ofNat 64 (j + 1)) = u := hr2
          have := ((mk_same _ _ _ _).1 (hr2.trans hp2.symm)).2.2
          have a := hS _ (Finset.mem_product.1 hr1).1
          have b := hS _ (Finset.mem_product.1 hp1).1
          rw [BitVec.toNat_add, BitVec.toNat_add, BitVec.toNat_ofNat] at this
          have er : (BitVec.ofFin r.1).toNat = r.1.val := rfl
          have ep : (BitVec.ofFin p.1).toNat = p.1.val := rfl
          rw [er, ep] at this
          apply Fin.ext
          generalize r.1.val = x at *
          generalize p.1.val = y at *
          clear er ep hr2 hp2 hr1 hp1 hr hp hn hout hlen
          norm_num at *
          omega
        refine Finset.card_le_card_of_injOn Prod.snd ?_ ?_
        · intro r hr
          have e1 := start r hr
          have hr2 : mk (r.2.val (BitVec.ofFin r.1 + BitVec.ofNat 64 (j + 1))) (BitVec.ofFin r.1 + BitVec.ofNat 64 (j + 1)) = u := (Finset.mem_filter.1 hr).2
          rw [e1] at hr2
          rw [Finset.mem_coe, Finset.mem_filter]
          refine ⟨?_, hr2⟩
          simp only [Finset.mem_univ]
        · intro r hr r' hr' e
          exact Prod.ext ((start r hr).trans (start r' hr').symm) e
      have cnt := count_hash h (q + BitVec.ofNat 64 i) (BitVec.ofFin p.1 + BitVec.ofNat 64 (j + 1))
        ((mk_same _ _ _ _).1 (hp2.trans e)).2.2
      rw [← e] at cnt
      rw [← cnt]
      refine Nat.mul_le_mul_right _ (Nat.le_trans sub (Nat.le_of_eq ?_))
      congr
  have cover : ((S ×ˢ (Finset.univ : Finset HashFn)).filter fun p => ∃ (n' : Nat) (as' : List (Act n')) (s' : St n'),
      exec (init n' (BitVec.ofFin p.1)) as' = some s' ∧ Hashed p.2 (init n' (BitVec.ofFin p.1)) as' ∧ starts as' ≤ m ∧ ∃ u ∈ s.out, u ∈ s'.out) ⊆
      (s.out.toFinset ×ˢ Finset.range m).biUnion Bad := by
    intro p hp
    obtain ⟨hp1, n', as', s', e', hh, hm, u, hu, hu'⟩ := Finset.mem_filter.1 hp
    have O := own_exec as' (own_init n' (BitVec.ofFin p.1) p.2) hh e'
    obtain ⟨i, a, b, e⟩ := O.out u hu'
    refine Finset.mem_biUnion.2 ⟨(u, i - 1), Finset.mem_product.2 ⟨List.mem_toFinset.2 hu, Finset.mem_range.2 (show i - 1 < m by omega)⟩,
      Finset.mem_filter.2 ⟨hp1, ?_⟩⟩
    show mk (p.2.val (BitVec.ofFin p.1 + BitVec.ofNat 64 (i - 1 + 1))) (BitVec.ofFin p.1 + BitVec.ofNat 64 (i - 1 + 1)) = u
    rw [Nat.sub_add_cancel a]
    exact e.symm
  have total : ((s.out.toFinset ×ˢ Finset.range m).biUnion Bad).card * 2 ^ 60 ≤ starts as * m * Fintype.card HashFn := by
    calc _ ≤ (∑ c ∈ s.out.toFinset ×ˢ Finset.range m, (Bad c).card) * 2 ^ 60 := Nat.mul_le_mul_right _ Finset.card_biUnion_le
      _ = ∑ c ∈ s.out.toFinset ×ˢ Finset.range m, (Bad c).card * 2 ^ 60 := Finset.sum_mul ..
      _ ≤ ∑ _c ∈ s.out.toFinset ×ˢ Finset.range m, Fintype.card HashFn := Finset.sum_le_sum one
      _ = (s.out.toFinset ×ˢ Finset.range m).card * Fintype.card HashFn := Finset.sum_const_nat fun _ _ => rfl
      _ ≤ _ := by
        apply Nat.mul_le_mul_right
        rw [Finset.card_product, Finset.card_range]
        exact Nat.mul_le_mul_right _ (Nat.le_trans (List.toFinset_card_le _) hlen)
  have cp : (S ×ˢ (Finset.univ : Finset HashFn)).card = S.card * Fintype.card HashFn := by rw [Finset.card_product]; rfl
  rw [cp]
  have c1 := Finset.card_le_card cover
  have c2 := Nat.le_trans (Nat.mul_le_mul_right (2 ^ 60) c1) total
  calc _ = _ * 2 ^ 60 * S.card := by rw [Nat.mul_comm S.card, Nat.mul_assoc]
    _ ≤ starts as * m * Fintype.card HashFn * S.card := Nat.mul_le_mul_right _ c2
    _ = _ := by rw [Nat.mul_assoc, Nat.mul_comm (Fintype.card HashFn)]

/-- A process with two overlapping calls, and its hash values as a function. -/
example : (exec (init 2 7) [.add 0, .add 1, .finish 1 9, .finish 0 8]).isSome ∧ starts ([.add 0, .add 1, .finish 1 9, .finish 0 8] : List (Act 2)) = 2 := by decide +kernel
example : Hashed (fun x => x) (init 2 7) [.add 0, .add 1, .finish 1 9, .finish 0 8] := by
  simp [Hashed, act, init, HashFn.val]

/-- Far apart: starts 7 and 9, two calls each; one start earlier and there is a common UUID (`C263_claim_false`). -/
example : (7 : BitVec 64).toNat + starts ([.add 0, .add 1, .finish 1 9, .finish 0 8] : List (Act 2)) ≤ (9 : BitVec 64).toNat ∧
    (9 : BitVec 64).toNat + starts ([.add 0, .add 1, .finish 1 9, .finish 0 8] : List (Act 2)) ≤ (7 : BitVec 64).toNat + 2 ^ 62 := by decide

/-- Numbers: `Intn` of a source seeded with the time has less than 2^31 values (library: the seed is taken modulo 2^31 - 1). Two processes with a million calls each: if
2^31 - 1 starts are equally likely, less than one chance in 2^50. -/
example : 1000000 * 1000000 * 2 ^ 50 < (2 ^ 31 - 1) * 2 ^ 60 := by norm_num

end Gofer.Props.UuidMany
