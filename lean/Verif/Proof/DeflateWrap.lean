import Verif.Proof.DeflateBlock
/-!
# zlib and gzip
-/
namespace Gofer.Inflate
open Gofer.Spec.Deflate

/-! ## Numbers in four bytes, and Adler-32 -/

theorem be32_iff (bs : Bytes) (n : Nat) : be32 bs = some n ↔ Big n bs := by
  unfold Big
  constructor
  · intro h
    match bs, h with
    | [a, b, c, d], h => exact ⟨a, b, c, d, rfl, by simpa [be32] using h.symm⟩
  · rintro ⟨a, b, c, d, rfl, rfl⟩
    rfl

theorem big_len {n : Nat} {bs : Bytes} (h : Big n bs) : bs.length = 4 := by
  obtain ⟨a, b, c, d, rfl, _⟩ := h
  rfl

/-- The sum of the bytes, each times its distance to the end. -/
def weight : Bytes → Nat
  | [] => 0
  | x :: d => (d.length + 1) * x.toNat + weight d

theorem weight_eq (d : Bytes) : ((List.range d.length).map fun i => (d.length - i) * (d[i]?.getD 0).toNat).sum = weight d := by
  induction d with
  | nil => rfl
  | cons x d ih =>
    rw [List.length_cons, List.range_succ_eq_map, List.map_cons, List.map_map, List.sum_cons, weight, ← ih]
    congr 1
    congr 1
    apply List.map_congr_left
    intro i hi
    simp only [Function.comp, List.getElem?_cons_succ, Nat.succ_eq_add_one]
    rw [Nat.add_sub_add_right]

theorem adler_fold (d : Bytes) (s : Nat × Nat) (h1 : s.1 < 65521) (h2 : s.2 < 65521) :
    d.foldl (fun s p => ((s.1 + p.toNat) % 65521, (s.2 + (s.1 + p.toNat) % 65521) % 65521)) s =
      ((s.1 + (d.map UInt8.toNat).sum) % 65521, (s.2 + d.length * s.1 + weight d) % 65521) := by
  induction d generalizing s with
  | nil =>
    obtain ⟨a, b⟩ := s
    simp only [List.foldl_nil, List.map_nil, List.sum_nil, List.length_nil, weight] at *
    simp only [Nat.add_zero, Nat.zero_mul, Nat.mod_eq_of_lt h1, Nat.mod_eq_of_lt h2]
  | cons x d ih =>
    rw [List.foldl_cons, ih _ (Nat.mod_lt _ (by omega)) (Nat.mod_lt _ (by omega))]
    simp only [List.map_cons, List.sum_cons, List.length_cons, weight]
    have e1 := Nat.div_add_mod (s.1 + x.toNat) 65521
    have e2 := Nat.div_add_mod (s.2 + (s.1 + x.toNat) % 65521) 65521
    generalize (s.1 + x.toNat) / 65521 = q1 at *
    generalize (s.1 + x.toNat) % 65521 = r1 at *
    generalize (s.2 + r1) / 65521 = q2 at *
    generalize (s.2 + r1) % 65521 = r2 at *
    have k1 : s.1 + (x.toNat + (d.map UInt8.toNat).sum) = r1 + (d.map UInt8.toNat).sum + 65521 * q1 := by omega
    have k2 : s.2 + (d.length + 1) * s.1 + ((d.length + 1) * x.toNat + weight d) = r2 + d.length * r1 + weight d + 65521 * (q2 + d.length * q1 + q1) := by
      have : d.length * (65521 * q1 + r1) = d.length * (s.1 + x.toNat) := by rw [e1]
      linarith
    rw [k1, k2, Nat.add_mul_mod_self_left, Nat.add_mul_mod_self_left]

theorem adler_eq (d : Bytes) : adler32 d = adler d := by
  unfold adler32 adler
  rw [adler_fold d (1, 0) (by simp) (by simp), weight_eq]
  simp

/-! ## zlib -/

theorem flag (n i : Nat) : (n.testBit i = true) ↔ n / 2 ^ i % 2 = 1 := by
  rw [Nat.testBit_eq_decide_div_mod_eq]
  simp

theorem zlibHeader_iff (z r : Bytes) : zlibHeader z = some r ↔ ∃ h, z = h ++ r ∧ ZHead h := by
  constructor
  · intro h
    match z, h with
    | a :: b :: z, h =>
      rw [zlibHeader] at h
      by_cases hbad : a.toNat % 16 ≠ 8 ∨ a.toNat / 16 > 7 ∨ (a.toNat * 256 + b.toNat) % 31 ≠ 0
      · rw [if_pos hbad] at h; simp at h
      · rw [if_neg hbad] at h
        by_cases hd : b.toNat / 32 % 2 = 1
        · rw [if_pos hd] at h
          by_cases h1 : be32 (z.take 4) = some 1
          · rw [if_pos h1] at h
            simp only [Option.some.injEq] at h
            subst h
            obtain ⟨x, y, u, v, e, he⟩ := (be32_iff _ _).1 h1
            have hx : x = 0 := UInt8.toNat_inj.1 (by show x.toNat = 0; omega)
            have hy : y = 0 := UInt8.toNat_inj.1 (by show y.toNat = 0; omega)
            have hu : u = 0 := UInt8.toNat_inj.1 (by show u.toNat = 0; omega)
            have hv : v = 1 := UInt8.toNat_inj.1 (by show v.toNat = 1; omega)
            refine ⟨a :: b :: z.take 4, by simp, a, b, z.take 4, rfl, by omega, by omega, by omega, ?_⟩
            rw [if_pos ((flag _ 5).2 hd), e, hx, hy, hu, hv]
          · rw [if_neg h1] at h; simp at h
        · rw [if_neg hd] at h
          simp only [Option.some.injEq] at h
          subst h
          refine ⟨[a, b], rfl, a, b, [], rfl, by omega, by omega, by omega, ?_⟩
          rw [if_neg (fun h => hd ((flag _ 5).1 h))]
  · rintro ⟨h, rfl, a, b, dict, rfl, h1, h2, h3, h4⟩
    rw [List.cons_append, List.cons_append, zlibHeader, if_neg (by omega)]
    by_cases hd : b.toNat / 32 % 2 = 1
    · rw [if_pos ((flag _ 5).2 hd)] at h4
      subst h4
      rw [if_pos hd, if_pos]
      · simp
      · simp [be32]
    · rw [if_neg (fun h => hd ((flag _ 5).1 h))] at h4
      subst h4
      rw [if_neg hd]
      rfl

theorem zlibRead_iff (z o : Bytes) : zlibRead z = some (o, true) ↔ ∃ p rest, z = p ++ rest ∧ Zlib o p := by
  unfold zlibRead
  constructor
  · intro h
    cases hh : zlibHeader z with
    | none => rw [hh] at h; simp at h
    | some z1 =>
      rw [hh] at h
      simp only [] at h
      obtain ⟨hd, rfl, hz⟩ := (zlibHeader_iff _ _).1 hh
      cases hi : inflate z1 with
      | mk o₁ q =>
        rw [hi] at h
        cases q with
        | none => simp at h
        | some r =>
          simp only [Option.some.injEq, Prod.mk.injEq, decide_eq_true_eq] at h
          obtain ⟨rfl, h2⟩ := h
          obtain ⟨d, rfl, hD⟩ := (inflate_iff _ _ _).1 hi
          rw [be32_iff, adler_eq] at h2
          exact ⟨hd ++ (d ++ r.take 4), r.drop 4, by simp, hd, d, r.take 4, rfl, hz, hD, h2⟩
  · rintro ⟨p, rest, rfl, h, d, s, rfl, hz, hD, hs⟩
    have e : h ++ (d ++ s) ++ rest = h ++ (d ++ (s ++ rest)) := by simp
    rw [e, (zlibHeader_iff _ (d ++ (s ++ rest))).2 ⟨h, rfl, hz⟩]
    simp only []
    rw [(inflate_iff _ o (s ++ rest)).2 ⟨d, rfl, hD⟩]
    simp only [Option.some.injEq, Prod.mk.injEq, true_and, decide_eq_true_eq]
    rw [List.take_left' (big_len hs), be32_iff, adler_eq]
    exact hs

/-! ## gzip -/

theorem readString_iff (z a r : Bytes) : readString z = some (a, r) ↔ z = a ++ r ∧ ∃ n, a = n ++ [0] ∧ 0 ∉ n ∧ n.length < 512 := by
  unfold readString
  constructor
  · intro h
    cases hi : (z.take 512).findIdx? (· = 0) with
    | none => rw [hi] at h; simp at h
    | some i =>
      rw [hi] at h
      simp only [Option.some.injEq, Prod.mk.injEq] at h
      obtain ⟨rfl, rfl⟩ := h
      obtain ⟨h1, h2, h3⟩ := List.findIdx?_eq_some_iff_getElem.1 hi
      simp only [decide_eq_true_eq, List.getElem_take] at h2 h3
      rw [List.length_take] at h1
      refine ⟨(List.take_append_drop _ _).symm, z.take i, ?_, ?_, by rw [List.length_take]; omega⟩
      · rw [List.take_add_one, List.getElem?_eq_getElem (by omega), h2]
        rfl
      · intro hm
        obtain ⟨j, hj, e⟩ := List.mem_iff_getElem.1 hm
        rw [List.length_take] at hj
        rw [List.getElem_take] at e
        exact h3 j (by omega) e
  · rintro ⟨rfl, n, rfl, h0, hn⟩
    have : ((n ++ [0] ++ r).take 512).findIdx? (· = 0) = some n.length := by
      rw [List.findIdx?_eq_some_iff_getElem]
      refine ⟨by simp; omega, ?_, ?_⟩
      · simp
      · intro j hj
        simp only [List.getElem_take, decide_eq_true_eq]
        have e1 : (n ++ [0] ++ r)[j]? = n[j]? := by rw [List.append_assoc, List.getElem?_append_left hj]
        rw [List.getElem?_eq_getElem (by simp; omega), List.getElem?_eq_getElem hj, Option.some.injEq] at e1
        rw [e1]
        intro e
        exact h0 (e ▸ List.getElem_mem hj)
    rw [this]
    simp only [Option.some.injEq, Prod.mk.injEq]
    have hl : (n ++ [(0 : UInt8)]).length = n.length + 1 := by simp
    rw [← hl, List.take_left', List.drop_left']
    · exact ⟨rfl, rfl⟩
    · rfl
    · rfl

theorem readExtra_iff (z a r : Bytes) : readExtra z = some (a, r) ↔ z = a ++ r ∧ ∃ x y d, a = x :: y :: d ∧ d.length = x.toNat + 256 * y.toNat := by
  unfold readExtra
  constructor
  · intro h
    match z, h with
    | x :: y :: t, h =>
      simp only [] at h
      by_cases hl : t.length < x.toNat + y.toNat * 256
      · rw [if_pos hl] at h; simp at h
      · rw [if_neg hl] at h
        simp only [Option.some.injEq, Prod.mk.injEq] at h
        obtain ⟨rfl, rfl⟩ := h
        exact ⟨by simp, x, y, _, rfl, by rw [List.length_take]; omega⟩
  · rintro ⟨rfl, x, y, d, rfl, hl⟩
    simp only [List.cons_append]
    rw [if_neg (by rw [List.length_append]; omega), List.take_left' (by omega), List.drop_left' (by omega)]

theorem part_iff (there : Bool) {read : Bytes → Option (Bytes × Bytes)} {P : Bytes → Prop} (hr : ∀ z a r, read z = some (a, r) ↔ z = a ++ r ∧ P a) (s t : Bytes × Bytes) :
    part there read s = some t ↔ ∃ a, t.1 = s.1 ++ a ∧ s.2 = a ++ t.2 ∧ (if there then P a else a = []) := by
  obtain ⟨s1, s2⟩ := s
  obtain ⟨t1, t2⟩ := t
  unfold part
  cases there with
  | false =>
    simp only [Bool.false_eq_true, if_false, Option.some.injEq, Prod.mk.injEq]
    constructor
    · rintro ⟨rfl, rfl⟩
      exact ⟨[], by simp, rfl, rfl⟩
    · rintro ⟨a, rfl, rfl, rfl⟩
      simp
  | true =>
    simp only [if_true]
    constructor
    · intro h
      cases hx : read s2 with
      | none => rw [hx] at h; simp at h
      | some p =>
        obtain ⟨a, r⟩ := p
        rw [hx] at h
        simp only [Option.some.injEq, Prod.mk.injEq] at h
        obtain ⟨rfl, rfl⟩ := h
        obtain ⟨h1, h2⟩ := (hr _ _ _).1 hx
        exact ⟨a, rfl, h1, h2⟩
    · rintro ⟨a, rfl, rfl, h⟩
      rw [(hr _ a t2).2 ⟨rfl, h⟩]

theorem flag4 (n : Nat) : (decide (n / 4 % 2 = 1)) = n.testBit 2 := by rw [Nat.testBit_eq_decide_div_mod_eq]
theorem flag8 (n : Nat) : (decide (n / 8 % 2 = 1)) = n.testBit 3 := by rw [Nat.testBit_eq_decide_div_mod_eq]
theorem flag16 (n : Nat) : (decide (n / 16 % 2 = 1)) = n.testBit 4 := by rw [Nat.testBit_eq_decide_div_mod_eq]

theorem ten (z : Bytes) (h : ¬ z.length < 10) : ∃ m0 m1 m2 flg a1 a2 a3 a4 xfl os t, z = m0 :: m1 :: m2 :: flg :: a1 :: a2 :: a3 :: a4 :: xfl :: os :: t := by
  have step : ∀ {n : Nat} {z : Bytes}, ¬ z.length < n + 1 → ∃ a t, z = a :: t ∧ ¬ t.length < n := by
    intro n z h
    cases z with
    | nil => simp at h
    | cons a t => exact ⟨a, t, rfl, by simpa using h⟩
  obtain ⟨m0, z0, rfl, h0⟩ := step h
  obtain ⟨m1, z1, rfl, h1⟩ := step h0
  obtain ⟨m2, z2, rfl, h2⟩ := step h1
  obtain ⟨flg, z3, rfl, h3⟩ := step h2
  obtain ⟨a1, z4, rfl, h4⟩ := step h3
  obtain ⟨a2, z5, rfl, h5⟩ := step h4
  obtain ⟨a3, z6, rfl, h6⟩ := step h5
  obtain ⟨a4, z7, rfl, h7⟩ := step h6
  obtain ⟨xfl, z8, rfl, h8⟩ := step h7
  obtain ⟨os, z9, rfl, h9⟩ := step h8
  exact ⟨m0, m1, m2, flg, a1, a2, a3, a4, xfl, os, z9, rfl⟩

theorem gzipHeader_iff (z r : Bytes) : gzipHeader z = some r ↔ ∃ h, z = h ++ r ∧ GHead h := by
  have pe := fun (t : Bool) s u => part_iff t readExtra_iff s u
  have ps := fun (t : Bool) s u => part_iff t readString_iff s u
  constructor
  · intro h
    unfold gzipHeader at h
    by_cases h10 : z.length < 10
    · rw [if_pos h10] at h; simp at h
    · rw [if_neg h10] at h
      obtain ⟨m0, m1, m2, flg, a1, a2, a3, a4, xfl, os, z, rfl⟩ := ten z h10
      by_cases hm : (m0 :: m1 :: m2 :: flg :: a1 :: a2 :: a3 :: a4 :: xfl :: os :: z).take 3 ≠ [31, 139, 8]
      · rw [if_pos hm] at h; simp at h
      · rw [if_neg hm] at h
        simp only [List.take_succ_cons, List.take_zero, ne_eq, List.cons.injEq, and_true, not_not] at hm
        obtain ⟨rfl, rfl, rfl⟩ := hm
        simp only [List.take_succ_cons, List.take_zero, List.drop_succ_cons, List.drop_zero, List.getElem?_cons_succ, List.getElem?_cons_zero, Option.getD_some] at h
        cases e1 : part (flg.toNat / 4 % 2 = 1) readExtra ([31, 139, 8, flg, a1, a2, a3, a4, xfl, os], z) with
        | none => rw [e1] at h; simp at h
        | some s1 =>
          rw [e1] at h
          simp only [] at h
          cases e2 : part (flg.toNat / 8 % 2 = 1) readString s1 with
          | none => rw [e2] at h; simp at h
          | some s2 =>
            rw [e2] at h
            simp only [] at h
            cases e3 : part (flg.toNat / 16 % 2 = 1) readString s2 with
            | none => rw [e3] at h; simp at h
            | some s3 =>
              obtain ⟨hh, z3⟩ := s3
              rw [e3] at h
              simp only [] at h
              obtain ⟨x, x1, x2, x3⟩ := (pe _ _ _).1 e1
              obtain ⟨n, n1, n2, n3⟩ := (ps _ _ _).1 e2
              obtain ⟨c, c1, c2, c3⟩ := (ps _ _ _).1 e3
              simp only [] at x1 x2 c1 c2
              rw [flag4] at x3
              rw [flag8] at n3
              rw [flag16] at c3
              have ehh : hh = [31, 139, 8, flg, a1, a2, a3, a4, xfl, os] ++ (x ++ (n ++ c)) := by rw [c1, n1, x1]; simp
              have ez : z = x ++ (n ++ (c ++ z3)) := by rw [x2, n2, c2]
              by_cases h1 : flg.toNat / 2 % 2 = 1
              · rw [if_pos h1] at h
                match z3, h with
                | a :: b :: t, h =>
                  simp only [] at h
                  by_cases hc : a.toNat + b.toNat * 256 = (Gofer.Crc32.crc32 hh).toNat % 65536
                  · rw [if_pos hc] at h
                    simp only [Option.some.injEq] at h
                    subst h
                    refine ⟨[31, 139, 8, flg, a1, a2, a3, a4, xfl, os] ++ (x ++ (n ++ (c ++ [a, b]))), by rw [ez]; simp, flg, a1, a2, a3, a4, xfl, os, x, n, c, [a, b], rfl, x3, n3, c3, ?_⟩
                    unfold HeadSum
                    rw [if_pos ((flag _ 1).2 h1), ← ehh]
                    exact ⟨a, b, rfl, by omega⟩
                  · rw [if_neg hc] at h; simp at h
              · rw [if_neg h1] at h
                simp only [Option.some.injEq] at h
                subst h
                refine ⟨[31, 139, 8, flg, a1, a2, a3, a4, xfl, os] ++ (x ++ (n ++ (c ++ []))), by rw [ez]; simp, flg, a1, a2, a3, a4, xfl, os, x, n, c, [], rfl, x3, n3, c3, ?_⟩
                unfold HeadSum
                rw [if_neg (fun h => h1 ((flag _ 1).1 h))]
  · rintro ⟨h, rfl, flg, a1, a2, a3, a4, xfl, os, x, n, c, s, rfl, x3, n3, c3, hs⟩
    have eb : [31, 139, 8, flg, a1, a2, a3, a4, xfl, os] ++ (x ++ (n ++ (c ++ s))) ++ r = 31 :: 139 :: 8 :: flg :: a1 :: a2 :: a3 :: a4 :: xfl :: os :: (x ++ (n ++ (c ++ (s ++ r)))) := by simp
    rw [eb]
    unfold gzipHeader
    rw [if_neg (by simp), if_neg (by simp)]
    simp only [List.take_succ_cons, List.take_zero, List.drop_succ_cons, List.drop_zero, List.getElem?_cons_succ, List.getElem?_cons_zero, Option.getD_some]
    rw [(pe _ _ ([31, 139, 8, flg, a1, a2, a3, a4, xfl, os] ++ x, n ++ (c ++ (s ++ r)))).2 ⟨x, rfl, rfl, by rw [flag4]; exact x3⟩]
    simp only []
    rw [(ps _ _ ([31, 139, 8, flg, a1, a2, a3, a4, xfl, os] ++ x ++ n, c ++ (s ++ r))).2 ⟨n, rfl, rfl, by rw [flag8]; exact n3⟩]
    simp only []
    rw [(ps _ _ ([31, 139, 8, flg, a1, a2, a3, a4, xfl, os] ++ x ++ n ++ c, s ++ r)).2 ⟨c, rfl, rfl, by rw [flag16]; exact c3⟩]
    simp only []
    unfold HeadSum at hs
    by_cases h1 : flg.toNat / 2 % 2 = 1
    · rw [if_pos ((flag _ 1).2 h1)] at hs
      obtain ⟨a, b, rfl, hab⟩ := hs
      rw [if_pos h1]
      simp only [List.cons_append, List.nil_append]
      rw [if_pos]
      have : (31 : UInt8) :: 139 :: 8 :: flg :: a1 :: a2 :: a3 :: a4 :: xfl :: os :: (x ++ n ++ c) = [31, 139, 8, flg, a1, a2, a3, a4, xfl, os] ++ (x ++ (n ++ c)) := by simp
      rw [this, hab]
      omega
    · rw [if_neg (fun h => h1 ((flag _ 1).1 h))] at hs
      subst hs
      rw [if_neg h1]
      rfl

theorem ghead_len {h : Bytes} (hg : GHead h) : 10 ≤ h.length := by
  obtain ⟨flg, a1, a2, a3, a4, xfl, os, x, n, c, s, rfl, _⟩ := hg
  simp only [List.length_append, List.length_cons, List.length_nil]
  omega

theorem members_sound {fuel : Nat} {z o : Bytes} (h : members fuel z = (o, true)) (hd : Bytes) (hg : GHead hd) : Gzip o (hd ++ z) := by
  induction fuel generalizing z o hd with
  | zero => simp [members] at h
  | succ fuel ih =>
    rw [members] at h
    cases hi : inflate z with
    | mk o₁ q =>
      rw [hi] at h
      cases q with
      | none => simp at h
      | some r =>
        simp only [] at h
        obtain ⟨d, rfl, hD⟩ := (inflate_iff _ _ _).1 hi
        by_cases hs : be32 ((r.take 4).reverse) ≠ some (Gofer.Crc32.crc32 o₁).toNat ∨ be32 (((r.drop 4).take 4).reverse) ≠ some (o₁.length % 2 ^ 32)
        · rw [if_pos hs] at h; simp at h
        · rw [if_neg hs] at h
          rw [not_or, not_not, not_not] at hs
          have hm : Member o₁ (hd ++ (d ++ (r.take 4 ++ (r.drop 4).take 4))) := ⟨hd, d, r.take 4, (r.drop 4).take 4, rfl, hg, hD, (be32_iff _ _).1 hs.1, (be32_iff _ _).1 hs.2⟩
          have er : r = r.take 4 ++ ((r.drop 4).take 4 ++ r.drop 8) := by
            conv_lhs => rw [← List.take_append_drop 4 r, ← List.take_append_drop 4 (r.drop 4), List.drop_drop]
          by_cases h8 : r.drop 8 = []
          · rw [if_pos h8] at h
            simp only [Prod.mk.injEq, and_true] at h
            subst h
            rw [h8] at er
            conv_rhs => rw [er]
            rw [List.append_nil]
            exact .one _ _ hm
          · rw [if_neg h8] at h
            cases hh : gzipHeader (r.drop 8) with
            | none => rw [hh] at h; simp at h
            | some z' =>
              rw [hh] at h
              simp only [Prod.mk.injEq] at h
              obtain ⟨hd', e', hg'⟩ := (gzipHeader_iff _ _).1 hh
              have := ih (z := z') (o := (members fuel z').1) (by rw [← h.2]) hd' hg'
              rw [← e'] at this
              have hG := Gzip.more _ _ _ _ hm this
              rw [h.1] at hG
              have e : hd ++ (d ++ r) = hd ++ (d ++ (r.take 4 ++ (r.drop 4).take 4)) ++ r.drop 8 := by
                conv_lhs => rw [er]
                simp
              rw [e]
              exact hG

theorem member_read {data m : Bytes} (hm : Member data m) (t : Bytes) : ∃ z r, gzipHeader (m ++ t) = some z ∧ z.length ≤ m.length + t.length ∧ t.length ≤ z.length ∧
    inflate z = (data, some r) ∧ be32 ((r.take 4).reverse) = some (Gofer.Crc32.crc32 data).toNat ∧ be32 (((r.drop 4).take 4).reverse) = some (data.length % 2 ^ 32) ∧
    r.drop 8 = t ∧ t.length + 8 ≤ z.length := by
  obtain ⟨h, d, c, l, rfl, hg, hD, hc, hl⟩ := hm
  have lc : c.length = 4 := by have := big_len hc; simpa using this
  have ll : l.length = 4 := by have := big_len hl; simpa using this
  have e : h ++ (d ++ (c ++ l)) ++ t = h ++ (d ++ (c ++ (l ++ t))) := by simp
  refine ⟨d ++ (c ++ (l ++ t)), c ++ (l ++ t), by rw [e]; exact (gzipHeader_iff _ _).2 ⟨h, rfl, hg⟩, ?_, ?_, (inflate_iff _ _ _).2 ⟨d, rfl, hD⟩, ?_, ?_, ?_, ?_⟩
  · simp only [List.length_append]; omega
  · simp only [List.length_append]; omega
  · rw [List.take_left' lc]; exact (be32_iff _ _).2 hc
  · rw [List.drop_left' lc, List.take_left' ll]; exact (be32_iff _ _).2 hl
  · rw [← List.append_assoc, List.drop_left' (by simp; omega)]
  · simp only [List.length_append]; omega

theorem gzip_len {o z : Bytes} (h : Gzip o z) : z ≠ [] := by
  have hm : ∀ {d m}, Member d m → m ≠ [] := by
    rintro d m ⟨h, _, _, _, rfl, hg, _⟩ e
    have := ghead_len hg
    have := congrArg List.length e
    simp only [List.length_append, List.length_nil] at this
    omega
  cases h with
  | one _ _ h => exact hm h
  | more _ _ _ _ h _ => intro e; exact hm h (List.append_eq_nil_iff.1 e).1

theorem members_read {o z : Bytes} (h : Gzip o z) : ∃ r, gzipHeader z = some r ∧ r.length ≤ z.length ∧ ∀ fuel, r.length < fuel → members fuel r = (o, true) := by
  induction h with
  | one d m hm =>
    obtain ⟨z, r, h1, h2, h3, h4, h5, h6, h7, h8⟩ := member_read hm []
    rw [List.append_nil] at h1
    refine ⟨z, h1, by simpa using h2, fun fuel hf => ?_⟩
    obtain ⟨fuel, rfl⟩ : ∃ f, fuel = f + 1 := ⟨fuel - 1, by omega⟩
    rw [members, h4]
    simp only []
    rw [if_neg (by rw [h5, h6]; simp), if_pos h7]
  | more d d' m z hm hz ih =>
    obtain ⟨z₁, r, h1, h2, h3, h4, h5, h6, h7, h8⟩ := member_read hm z
    obtain ⟨r', k1, k2, k3⟩ := ih
    refine ⟨z₁, h1, by rw [List.length_append]; exact h2, fun fuel hf => ?_⟩
    obtain ⟨fuel, rfl⟩ : ∃ f, fuel = f + 1 := ⟨fuel - 1, by omega⟩
    rw [members, h4]
    simp only []
    rw [if_neg (by rw [h5, h6]; simp), h7, if_neg (gzip_len hz), k1]
    simp only []
    rw [k3 fuel (by omega)]

theorem gzipRead_iff (z o : Bytes) : gzipRead z = some (o, true) ↔ Gzip o z := by
  unfold gzipRead
  constructor
  · intro h
    cases hh : gzipHeader z with
    | none => rw [hh] at h; simp at h
    | some r =>
      rw [hh] at h
      simp only [Option.some.injEq] at h
      obtain ⟨hd, rfl, hg⟩ := (gzipHeader_iff _ _).1 hh
      exact members_sound h hd hg
  · intro h
    obtain ⟨r, h1, h2, h3⟩ := members_read h
    rw [h1]
    simp only [Option.some.injEq]
    exact h3 _ (by omega)

end Gofer.Inflate
