import Verif.Proof.GobStream

/-! # Values cut short within their message -/
namespace Gofer.GobCut
open Gofer.Gob Gofer.Spec.Gob Gofer.GobStream

/-- A reader that reads the same whatever follows what it has read. -/
def Steady {α : Type} (g : List UInt8 → Option (α × List UInt8)) : Prop :=
  ∀ bs v r, g bs = some (v, r) → ∃ p, bs = p ++ r ∧ ∀ z, g (p ++ z) = some (v, z)

theorem steady_bind {α β : Type} {f : List UInt8 → Option (β × List UInt8)} {g : List UInt8 → Option (α × List UInt8)}
    (k : α → List UInt8 → Option (β × List UInt8)) (hg : Steady g) (hk : ∀ a, Steady (k a))
    (hf : ∀ bs, f bs = (g bs).elim none (fun q => k q.1 q.2)) : Steady f := by
  intro bs v r h
  rw [hf] at h
  cases e : g bs with
  | none => simp [e] at h
  | some q =>
    obtain ⟨a, s⟩ := q
    simp only [e, Option.elim_some] at h
    obtain ⟨p1, rfl, h1⟩ := hg _ _ _ e
    obtain ⟨p2, rfl, h2⟩ := hk a _ _ _ h
    refine ⟨p1 ++ p2, by simp, fun z => ?_⟩
    rw [hf, List.append_assoc, h1]
    exact h2 z

theorem steady_map {α β : Type} {g : List UInt8 → Option (α × List UInt8)} (f : α → β) (hg : Steady g) :
    Steady (fun bs => (g bs).map fun p => (f p.1, p.2)) := by
  intro bs v r h
  simp only at h ⊢
  cases e : g bs with
  | none => simp [e] at h
  | some q =>
    obtain ⟨a, s⟩ := q
    simp only [e, Option.map_some, Option.some.injEq, Prod.mk.injEq] at h
    obtain ⟨rfl, rfl⟩ := h
    obtain ⟨p, rfl, h1⟩ := hg _ _ _ e
    exact ⟨p, rfl, fun z => by rw [h1]; rfl⟩

theorem steady_pure {α : Type} (a : α) : Steady (fun bs => some (a, bs)) := by
  intro bs v r h
  simp only [Option.some.injEq, Prod.mk.injEq] at h
  obtain ⟨rfl, rfl⟩ := h
  exact ⟨[], rfl, fun z => rfl⟩

theorem steady_none {α : Type} : Steady (fun _ => (none : Option (α × List UInt8))) := by
  intro bs v r h
  simp at h

theorem steady_uint : Steady getUint := by
  intro bs v r h
  cases bs with
  | nil => simp [getUint] at h
  | cons b s =>
    simp only [getUint] at h
    split at h
    · rename_i hb
      simp only [Option.some.injEq, Prod.mk.injEq] at h
      obtain ⟨rfl, rfl⟩ := h
      exact ⟨[b], rfl, fun z => by simp [getUint, hb]⟩
    · rename_i hb
      split at h
      · simp at h
      · rename_i h8
        split at h
        · simp at h
        · rename_i hl
          simp only [Option.some.injEq, Prod.mk.injEq] at h
          obtain ⟨rfl, rfl⟩ := h
          refine ⟨b :: s.take (256 - b.toNat), by simp, fun z => ?_⟩
          have e : (s.take (256 - b.toNat)).length = 256 - b.toNat := by rw [List.length_take]; omega
          simp only [List.cons_append, getUint, if_neg hb, if_neg h8]
          rw [if_neg (by rw [List.length_append, e]; omega), List.take_append_of_le_length (by omega),
            List.drop_append_of_le_length (by omega), List.drop_of_length_le (by omega)]
          rw [List.take_of_length_le (by omega : (s.take (256 - b.toNat)).length ≤ _)]
          rfl

theorem steady_int : Steady getInt := by
  refine steady_bind (fun u r => if u % 2 = 1 then some (~~~(BitVec.ofNat 64 (u / 2)), r) else some (BitVec.ofNat 64 (u / 2), r))
    steady_uint ?_ (by intro bs; unfold getInt; cases getUint bs <;> rfl)
  intro u
  by_cases h : u % 2 = 1
  · simp only [if_pos h]; exact steady_pure _
  · simp only [if_neg h]; exact steady_pure _

theorem steady_take (n : Nat) : Steady (fun r : List UInt8 => if r.length < n then none else some (r.take n, r.drop n)) := by
  intro bs v r h
  simp only at h ⊢
  split at h
  · simp at h
  · rename_i hl
    simp only [Option.some.injEq, Prod.mk.injEq] at h
    obtain ⟨rfl, rfl⟩ := h
    refine ⟨bs.take n, by simp, fun z => ?_⟩
    have e : (bs.take n).length = n := by rw [List.length_take]; omega
    rw [if_neg (by rw [List.length_append, e]; omega), List.take_append_of_le_length (by omega),
      List.drop_append_of_le_length (by omega), List.drop_of_length_le (by omega)]
    rw [List.take_of_length_le (by omega : (bs.take n).length ≤ _)]
    rfl

theorem steady_bytes : Steady getBytes :=
  steady_bind (fun n (r : List UInt8) => if r.length < n then none else some (r.take n, r.drop n)) steady_uint steady_take
    (by intro bs; unfold getBytes; cases getUint bs <;> rfl)

theorem steady_all {α : Type} {g : List UInt8 → Option (α × List UInt8)} (hg : Steady g) : ∀ n, Steady (getAll g n)
  | 0 => steady_pure _
  | n + 1 =>
    steady_bind (fun a r => (getAll g n r).map fun p => (a :: p.1, p.2)) hg (fun a => steady_map (a :: ·) (steady_all hg n)) (by
      intro bs
      rw [getAll]
      cases g bs with
      | none => rfl
      | some q =>
        simp only [Option.elim_some]
        cases getAll g n q.2 <;> rfl)

theorem steady_get : ∀ t : Ty, NoStruct t → Steady (get t)
  | .bool, _ => steady_map (fun n => (n != 0 : Bool)) steady_uint
  | .int, _ => steady_int
  | .uint, _ => steady_map (fun n => (BitVec.ofNat 64 n : BitVec 64)) steady_uint
  | .float, _ => steady_map (fun n => (reverseBytes (BitVec.ofNat 64 n) : BitVec 64)) steady_uint
  | .str, _ => steady_bytes
  | .bytes, _ => steady_map (fun b : List UInt8 => (if b.isEmpty then none else some b : Option (List UInt8))) steady_bytes
  | .slice t, h => steady_bind (fun n r => (getAll (get t) n r).map fun p =>
      ((if p.1.isEmpty then none else some p.1 : Option (List t.Val)), p.2)) steady_uint
      (fun n => steady_map (fun l : List t.Val => (if l.isEmpty then none else some l : Option (List t.Val))) (steady_all (steady_get t h) n))
      (by intro bs; rw [get_slice]; cases getUint bs <;> rfl)
  | .map k w, h => steady_bind (fun n r => (getAll (getEntry k w) n r).map fun p =>
      ((some p.1 : Option (List (k.Val × w.Val))), p.2)) steady_uint
      (fun n => steady_map (fun l => (some l : Option (List (k.Val × w.Val)))) (steady_all
        (steady_bind (fun a r => (get w r).map fun p => ((a, p.1), p.2)) (steady_get k h.1)
          (fun a => steady_map (fun b => (a, b)) (steady_get w h.2)) (by
            intro bs
            unfold getEntry
            cases get k bs with
            | none => rfl
            | some q =>
              simp only [Option.elim_some]
              cases get w q.2 <;> rfl)) n))
      (by intro bs; rw [get_map]; cases getUint bs <;> rfl)
  | .ptr t, h => steady_map (fun a => (some a : Option t.Val)) (steady_get t h)
  | .struct _, h => h.elim

theorem noStruct_isStruct : ∀ t : Ty, NoStruct t → isStruct t = false
  | .bool, _ => rfl
  | .int, _ => rfl
  | .uint, _ => rfl
  | .float, _ => rfl
  | .str, _ => rfl
  | .bytes, _ => rfl
  | .slice _, _ => rfl
  | .map _ _, _ => rfl
  | .ptr t, h => noStruct_isStruct t h
  | .struct _, h => h.elim

/-- The value of the message behind the number of the type. -/
def tail (t : Ty) (m : List UInt8) : Option (t.Val × List UInt8) :=
  if isStruct t then get t m
  else
    match getUint m with
    | none => none
    | some (d, m) => if d ≠ 0 then none else get t m

theorem steady_tail (t : Ty) (hn : NoStruct t) : Steady (tail t) := by
  by_cases h : isStruct t = true
  · rw [noStruct_isStruct t hn] at h
    simp at h
  · refine steady_bind (fun d m => if d ≠ 0 then none else get t m) steady_uint (fun d => ?_) (by
      intro m; unfold tail; rw [if_neg h]; cases getUint m <;> rfl)
    by_cases hd : d = 0
    · simp only [hd, ne_eq, not_true_eq_false, if_false]; exact steady_get t hn
    · simp only [ne_eq, hd, not_false_eq_true, if_true]; exact steady_none

theorem steady_cut {α : Type} {g : List UInt8 → Option (α × List UInt8)} (hg : Steady g) {b p : List UInt8} {v : α}
    (h : g b = some (v, [])) (hc : Cut p b) : g p = none := by
  cases e : g p with
  | none => rfl
  | some q =>
    obtain ⟨w, r⟩ := q
    obtain ⟨s, rfl, h1⟩ := hg _ _ _ e
    obtain ⟨q, hq, rfl⟩ := hc
    rw [List.append_assoc, h1, Option.some.injEq, Prod.mk.injEq] at h
    exact absurd (List.append_eq_nil_iff.mp h.2).2 hq

theorem getInt_cut (x : BitVec 64) (p : List UInt8) (h : Cut p (putInt x)) : getInt p = none := by
  unfold getInt
  unfold putInt at h
  split at h <;> rw [getUint_cut _ p h]

theorem getSequence_short : ∀ (ds : List (BitVec 64 × List UInt8)) (fuel : Nat) (c r : List UInt8),
    (∀ d ∈ ds, d.1.msb = true) → (∀ d ∈ ds, d.2.length < 2 ^ 32) → c.length < tooBig → getInt c = none →
    getSequence fuel (stream ds ++ (message c ++ r)) = none
  | _, 0, _, _, _, _, _, _ => rfl
  | [], fuel + 1, c, r, _, _, hc, h => by
    show getSequence (fuel + 1) (message c ++ r) = none
    rw [getSequence, getMessage_put _ _ hc]
    simp only [h]
  | d :: ds, fuel + 1, c, r, h1, h2, hc, h => by
    rw [stream_cons, List.append_assoc, getSequence, getMessage_put _ _ (def_fits d (h2 d (by simp)))]
    simp only []
    rw [getInt_put]
    simp only [h1 d (by simp), if_true]
    rw [getSequence_short ds fuel c r (fun x hx => h1 x (by simp [hx])) (fun x hx => h2 x (by simp [hx])) hc h]
    rfl

theorem decode_short (l : Lib) (hl : l.Lawful) (t : Ty) (hns : NoStruct t) (v : t.Val) (b p r : List UInt8) (he : Exists t v)
    (hb : body l t v = some b) (hs : b.length < tooBig) (hc : Cut p b) :
    decode l t (definitions l t ++ message p ++ r) = none := by
  have hpl : p.length < tooBig := by
    obtain ⟨q, _, rfl⟩ := hc
    rw [List.length_append] at hs
    omega
  unfold body at hb
  obtain ⟨x, hx, rfl⟩ := map_some hb
  have e : definitions l t ++ message p ++ r = stream (l.defs t) ++ (message p ++ r) := by
    simp [definitions, stream, List.append_assoc]
  rw [List.append_assoc (putInt (l.id t))] at hc
  rcases cut_append hc with hc' | ⟨p', rfl, hc'⟩
  · unfold decode
    rw [e, getSequence_short _ _ _ _ (hl.defs_neg t) (hl.defs_len t) hpl (getInt_cut _ _ hc')]
  · have ht : tail t ((if isStruct t = true then [] else putUint 0) ++ x) = some (back t v, []) := by
      have hg := get_put t v x [] he hx
      rw [List.append_nil] at hg
      unfold tail
      by_cases h : isStruct t = true
      · rw [if_pos h, if_pos h, List.nil_append, hg]
      · rw [if_neg h, if_neg h, getUint_put 0 (by omega)]
        simp [hg]
    have hn := steady_cut (steady_tail t hns) ht hc'
    unfold decode
    rw [e, getSequence_put (l.defs t) _ (l.id t) _ r (hl.defs_neg t) (hl.defs_len t) (hl.id_pos t) hpl
      (by have := stream_len (l.defs t); rw [List.length_append]; omega)]
    simp only [hl.fits_own, Bool.true_eq_false, if_false]
    unfold tail at hn
    split
    · rename_i h
      rw [if_pos h] at hn
      rw [hn]; rfl
    · rename_i h
      rw [if_neg h] at hn
      split
      · rfl
      · rename_i d m hm
        rw [hm] at hn
        simp only at hn
        split
        · rfl
        · rename_i hd
          rw [if_neg hd] at hn
          rw [hn]; rfl

end Gofer.GobCut
