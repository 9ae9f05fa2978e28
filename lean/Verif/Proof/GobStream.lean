import Verif.Proof.Gob

namespace Gofer.GobStream
open Gofer.Gob Gofer.Spec.Gob

theorem message_ne (b : List UInt8) : message b ≠ [] := by
  unfold message
  simp [putUint_ne]

theorem getMessage_put (b r : List UInt8) (h : b.length < tooBig) : getMessage (message b ++ r) = some (b, r) := by
  unfold message getMessage
  have h' : b.length < 2 ^ 33 := h
  rw [List.append_assoc, getUint_put b.length (by omega)]
  simp only []
  rw [if_neg (by omega), if_neg (by simp)]
  simp

theorem putUint_len (x : Nat) : (putUint x).length ≤ 9 := by
  unfold putUint
  split
  · simp
  · have := be_len 8 x
    simp
    omega

theorem putInt_len (x : BitVec 64) : (putInt x).length ≤ 9 := by
  unfold putInt
  split <;> exact putUint_len _

/-- The messages of definitions. -/
abbrev stream (ds : List (BitVec 64 × List UInt8)) : List UInt8 := ds.flatMap fun d => message (putInt d.1 ++ d.2)

theorem stream_cons (d : BitVec 64 × List UInt8) (ds : List (BitVec 64 × List UInt8)) :
    stream (d :: ds) = message (putInt d.1 ++ d.2) ++ stream ds := by simp [stream]

theorem stream_len : ∀ ds : List (BitVec 64 × List UInt8), ds.length ≤ (stream ds).length
  | [] => by simp
  | d :: ds => by
    have := stream_len ds
    have h := List.length_pos_iff.2 (message_ne (putInt d.1 ++ d.2))
    rw [stream_cons, List.length_append, List.length_cons]
    omega

theorem def_fits (d : BitVec 64 × List UInt8) (h : d.2.length < 2 ^ 32) : (putInt d.1 ++ d.2).length < tooBig := by
  have := putInt_len d.1
  have e : tooBig = 2 ^ 33 := rfl
  rw [List.length_append, e]
  omega

theorem getSequence_put : ∀ (ds : List (BitVec 64 × List UInt8)) (fuel : Nat) (id : BitVec 64) (c r : List UInt8),
    (∀ d ∈ ds, d.1.msb = true) → (∀ d ∈ ds, d.2.length < 2 ^ 32) → id.msb = false → (putInt id ++ c).length < tooBig →
    ds.length < fuel → getSequence fuel (stream ds ++ (message (putInt id ++ c) ++ r)) = some (ds, id, c)
  | [], 0, _, _, _, _, _, _, _, h => by simp at h
  | [], fuel + 1, id, c, r, _, _, hid, hc, _ => by
    simp only [stream, List.flatMap_nil, List.nil_append]
    rw [getSequence, getMessage_put _ _ hc]
    simp only []
    rw [getInt_put]
    simp [hid]
  | d :: ds, 0, _, _, _, _, _, _, _, h => by simp at h
  | d :: ds, fuel + 1, id, c, r, h1, h2, hid, hc, hf => by
    rw [stream_cons, List.append_assoc, getSequence, getMessage_put _ _ (def_fits d (h2 d (by simp)))]
    simp only []
    rw [getInt_put]
    simp only [h1 d (by simp), if_true]
    rw [getSequence_put ds fuel id c r (fun x hx => h1 x (by simp [hx])) (fun x hx => h2 x (by simp [hx])) hid hc
      (by simp at hf; omega)]
    rfl

theorem decode_body (l : Lib) (hl : l.Lawful) (t : Ty) (v : t.Val) (b r : List UInt8) (he : Exists t v)
    (hb : body l t v = some b) (hs : b.length < tooBig) :
    decode l t (definitions l t ++ message b ++ r) = some (back t v) := by
  unfold body at hb
  obtain ⟨p, hp, rfl⟩ := map_some hb
  unfold decode
  have e : definitions l t ++ message (putInt (l.id t) ++ (if isStruct t = true then [] else putUint 0) ++ p) ++ r =
      stream (l.defs t) ++ (message (putInt (l.id t) ++ ((if isStruct t = true then [] else putUint 0) ++ p)) ++ r) := by
    simp [definitions, stream, List.append_assoc]
  rw [e, getSequence_put (l.defs t) _ (l.id t) _ r (hl.defs_neg t) (hl.defs_len t) (hl.id_pos t) (by simpa [List.append_assoc] using hs)
    (by have := stream_len (l.defs t); rw [List.length_append]; omega)]
  simp only [hl.fits_own, Bool.true_eq_false, if_false]
  have hg := get_put t v p [] he hp
  rw [List.append_nil] at hg
  by_cases hst : isStruct t = true
  · rw [if_pos hst, if_pos hst, List.nil_append, hg]
    rfl
  · rw [if_neg hst, if_neg hst, getUint_put 0 (by omega)]
    simp [hg]

/-! ## Streams cut short -/

/-- `p` is a beginning of `s`, but not all of it. -/
def Cut (p s : List UInt8) : Prop := ∃ q, q ≠ [] ∧ s = p ++ q

theorem cut_append {p a b : List UInt8} (h : Cut p (a ++ b)) : Cut p a ∨ ∃ p', p = a ++ p' ∧ Cut p' b := by
  obtain ⟨q, hq, he⟩ := h
  rcases List.append_eq_append_iff.1 he with ⟨c, hc, hd⟩ | ⟨c, hc, hd⟩
  · exact Or.inr ⟨c, hc, q, hq, hd⟩
  · by_cases hn : c = []
    · subst hn
      rw [List.append_nil] at hc
      rw [List.nil_append] at hd
      exact Or.inr ⟨[], by rw [hc, List.append_nil], q, hq, hd.symm⟩
    · exact Or.inl ⟨c, hn, hc⟩

theorem getUint_cut (x : Nat) (p : List UInt8) (h : Cut p (putUint x)) : getUint p = none := by
  obtain ⟨q, hq, he⟩ := h
  unfold putUint at he
  have hq' := List.length_pos_iff.2 hq
  cases p with
  | nil => rfl
  | cons a p =>
    by_cases h1 : x ≤ 127
    · rw [if_pos h1] at he
      have := congrArg List.length he
      simp only [List.length_cons, List.length_append, List.length_nil] at this
      omega
    · rw [if_neg h1] at he
      simp only [List.cons_append, List.cons.injEq] at he
      obtain ⟨rfl, hb⟩ := he
      have l1 := be_len 8 x
      have l2 := be_pos 7 x (by omega)
      rw [hb] at l1 l2
      rw [hb]
      have e : (256 - (p ++ q).length).toUInt8.toNat = 256 - (p ++ q).length := by
        simp only [Nat.toUInt8, UInt8.toNat_ofNat']
        omega
      have e2 : ¬ (256 - (p ++ q).length).toUInt8 ≤ 127 := by
        rw [UInt8.le_iff_toNat_le, e]
        have : (127 : UInt8).toNat = 127 := rfl
        omega
      simp only [getUint, if_neg e2, e]
      have e3 : 256 - (256 - (p ++ q).length) = (p ++ q).length := by omega
      rw [e3, if_neg (by omega), if_pos (by rw [List.length_append]; omega)]

theorem getMessage_cut (b p : List UInt8) (hb : b.length < tooBig) (h : Cut p (message b)) : getMessage p = none := by
  have hb' : b.length < 2 ^ 33 := hb
  unfold message at h
  unfold getMessage
  rcases cut_append h with h | ⟨p', rfl, q, hq, rfl⟩
  · rw [getUint_cut _ p h]
  · have hq' := List.length_pos_iff.2 hq
    rw [getUint_put _ (by omega)]
    simp only []
    rw [if_neg (by omega), if_pos (by rw [List.length_append]; omega)]

theorem getSequence_cut : ∀ (ds : List (BitVec 64 × List UInt8)) (fuel : Nat) (b p : List UInt8),
    (∀ d ∈ ds, d.1.msb = true) → (∀ d ∈ ds, d.2.length < 2 ^ 32) → b.length < tooBig →
    Cut p (stream ds ++ message b) → getSequence fuel p = none
  | _, 0, _, _, _, _, _, _ => rfl
  | [], fuel + 1, b, p, _, _, hb, h => by
    rw [getSequence, getMessage_cut b p hb (by simpa [stream] using h)]
  | d :: ds, fuel + 1, b, p, h1, h2, hb, h => by
    rw [stream_cons, List.append_assoc] at h
    have hd := def_fits d (h2 d (by simp))
    rcases cut_append h with h' | ⟨p', rfl, h'⟩
    · rw [getSequence, getMessage_cut _ p hd h']
    · rw [getSequence, getMessage_put _ _ hd]
      simp only []
      rw [getInt_put]
      simp only [h1 d (by simp), if_true]
      rw [getSequence_cut ds fuel b p' (fun x hx => h1 x (by simp [hx])) (fun x hx => h2 x (by simp [hx])) hb h']
      rfl

theorem decode_cut (l : Lib) (hl : l.Lawful) (t t' : Ty) (b p : List UInt8) (hb : b.length < tooBig)
    (h : Cut p (definitions l t ++ message b)) : decode l t' p = none := by
  unfold decode
  rw [getSequence_cut (l.defs t) _ b p (hl.defs_neg t) (hl.defs_len t) hb h]

theorem encode_cases (l : Lib) (t : Ty) (v : t.Val) (hn : nilPtr t v = false) :
    (∃ b, body l t v = some b ∧ b.length < tooBig ∧ encode l t v = .done (definitions l t ++ message b) false) ∨
    ((body l t v = none ∨ ∃ b, body l t v = some b ∧ tooBig ≤ b.length) ∧ encode l t v = .done (definitions l t) true) := by
  unfold encode
  rw [if_neg (by simp [hn])]
  cases hb : body l t v with
  | none => exact Or.inr ⟨Or.inl rfl, rfl⟩
  | some b =>
    by_cases hs : b.length ≥ tooBig
    · exact Or.inr ⟨Or.inr ⟨b, rfl, hs⟩, by simp only [if_pos hs]⟩
    · exact Or.inl ⟨b, rfl, by omega, by simp only [if_neg hs]⟩

theorem body_none (l : Lib) (t : Ty) (v : t.Val) : body l t v = none ↔ nilPtr t v = true ∨ NilElement t v := by
  unfold body
  rw [Option.map_eq_none_iff, put_none]

mutual
theorem exists_zero : ∀ (t : Ty) (v : t.Val), Exists t v → Exists t (zero t)
  | .bool, _, _ => trivial
  | .int, _, _ => trivial
  | .uint, _, _ => trivial
  | .float, _, _ => trivial
  | .str, _, _ => (show ([] : List UInt8).length < 2 ^ 63 by simp)
  | .bytes, _, _ => (show ∀ b, (none : Option (List UInt8)) = some b → b.length < 2 ^ 63 by simp)
  | .slice t, _, _ => (show ∀ l, (none : Option (List t.Val)) = some l → l.length < 2 ^ 63 ∧ ∀ x ∈ l, Exists t x by simp)
  | .map k w, _, _ => (show ∀ l, (none : Option (List (k.Val × w.Val))) = some l → l.length < 2 ^ 63 ∧ ∀ e ∈ l, Exists k e.1 ∧ Exists w e.2 by
      simp)
  | .ptr t, _, _ => (show ∀ x, (none : Option t.Val) = some x → Exists t x by simp)
  | .struct f, v, h => ⟨h.1, existss_zero f v h.2⟩
theorem existss_zero : ∀ (f : Fields) (v : f.Vals), Existss f v → Existss f (zeros f)
  | .nil, _, _ => trivial
  | .cons t f, ((v, w) : t.Val × f.Vals), h => ⟨exists_zero t v h.1, existss_zero f w h.2⟩
end

mutual
theorem exists_back : ∀ (t : Ty) (v : t.Val), Exists t v → Exists t (back t v)
  | .bool, _, _ => trivial
  | .int, _, _ => trivial
  | .uint, _, _ => trivial
  | .float, _, _ => trivial
  | .str, _, h => h
  | .bytes, (none : Option (List UInt8)), h => h
  | .bytes, (some [] : Option (List UInt8)), _ => (show ∀ b, (none : Option (List UInt8)) = some b → b.length < 2 ^ 63 by simp)
  | .bytes, (some (a :: r) : Option (List UInt8)), h => h
  | .slice t, (none : Option (List t.Val)), h => h
  | .slice t, (some [] : Option (List t.Val)), _ =>
    (show ∀ l, (none : Option (List t.Val)) = some l → l.length < 2 ^ 63 ∧ ∀ x ∈ l, Exists t x by simp)
  | .slice t, (some (a :: r) : Option (List t.Val)), h =>
    (show ∀ l, some ((a :: r).map (back t)) = some l → l.length < 2 ^ 63 ∧ ∀ x ∈ l, Exists t x by
      rintro l hl
      obtain rfl := Option.some.inj hl
      obtain ⟨h1, h2⟩ := h _ rfl
      refine ⟨by rw [List.length_map]; exact h1, fun x hx => ?_⟩
      obtain ⟨y, hy, rfl⟩ := List.mem_map.1 hx
      exact exists_back t y (h2 y hy))
  | .map k w, (none : Option (List (k.Val × w.Val))), _ =>
    (show ∀ l, (some [] : Option (List (k.Val × w.Val))) = some l → l.length < 2 ^ 63 ∧ ∀ e ∈ l, Exists k e.1 ∧ Exists w e.2 by
      rintro l hl
      obtain rfl := Option.some.inj hl
      simp)
  | .map k w, (some l : Option (List (k.Val × w.Val))), h =>
    (show ∀ l', some (l.map fun e => (back k e.1, back w e.2)) = some l' → l'.length < 2 ^ 63 ∧ ∀ e ∈ l', Exists k e.1 ∧ Exists w e.2 by
      rintro l' hl
      obtain rfl := Option.some.inj hl
      obtain ⟨h1, h2⟩ := h _ rfl
      refine ⟨by rw [List.length_map]; exact h1, fun x hx => ?_⟩
      obtain ⟨y, hy, rfl⟩ := List.mem_map.1 hx
      exact ⟨exists_back k y.1 (h2 y hy).1, exists_back w y.2 (h2 y hy).2⟩)
  | .ptr t, (none : Option t.Val), h => h
  | .ptr t, (some x : Option t.Val), h => (show ∀ y, some (back t x) = some y → Exists t y by
      rintro y hy
      obtain rfl := Option.some.inj hy
      exact exists_back t x (h x rfl))
  | .struct f, v, h => ⟨h.1, existss_back f v h.2⟩
theorem existss_back : ∀ (f : Fields) (v : f.Vals), Existss f v → Existss f (backs f v)
  | .nil, _, _ => trivial
  | .cons t f, ((v, w) : t.Val × f.Vals), h => by
    rw [backs_cons]
    by_cases hn : nothing t v
    · rw [if_pos hn]
      exact ⟨exists_zero t v h.1, existss_back f w h.2⟩
    · rw [if_neg hn]
      exact ⟨exists_back t v h.1, existss_back f w h.2⟩
end

end Gofer.GobStream
