import Verif.Spec.Gob
import Mathlib.Tactic.IntervalCases

namespace Gofer.Gob
open Gofer.Spec.Gob

/-! ## Numbers -/

theorem foldl_be (l : List UInt8) (x : Nat) (b : UInt8) :
    (l ++ [b]).foldl (fun x c => x * 256 + c.toNat) x = l.foldl (fun x c => x * 256 + c.toNat) x * 256 + b.toNat := by
  simp [List.foldl_append]

theorem be_value : ∀ (n x : Nat), x < 256 ^ n → (bigEndian n x).foldl (fun x c => x * 256 + c.toNat) 0 = x
  | 0, x, h => by
    simp only [Nat.pow_zero] at h
    simp [bigEndian]
    omega
  | n + 1, x, h => by
    unfold bigEndian
    split
    · rename_i h0
      simp [h0]
    · rw [foldl_be, be_value n (x / 256) (by rw [Nat.pow_succ] at h; omega)]
      have : x.toUInt8.toNat = x % 256 := by simp [Nat.toUInt8]
      rw [this]
      omega

theorem be_len : ∀ (n x : Nat), (bigEndian n x).length ≤ n
  | 0, _ => by simp [bigEndian]
  | n + 1, x => by
    unfold bigEndian
    split
    · simp
    · have := be_len n (x / 256)
      simp
      omega

theorem be_pos (n x : Nat) (h : 0 < x) : 0 < (bigEndian (n + 1) x).length := by
  unfold bigEndian
  rw [if_neg (by omega)]
  simp

theorem getUint_put (x : Nat) (h : x < 2 ^ 64) (r : List UInt8) : getUint (putUint x ++ r) = some (x, r) := by
  unfold putUint
  by_cases h1 : x ≤ 127
  · rw [if_pos h1]
    have e : x.toUInt8.toNat = x := by simp [Nat.toUInt8]; omega
    have e2 : x.toUInt8 ≤ 127 := by
      rw [UInt8.le_iff_toNat_le, e]
      exact h1
    simp [getUint, e2, e]
  · rw [if_neg h1]
    simp only []
    have l1 := be_len 8 x
    have l2 := be_pos 7 x (by omega)
    have hv := be_value 8 x (by simpa using h)
    generalize bigEndian 8 x = b at *
    have e : (256 - b.length).toUInt8.toNat = 256 - b.length := by simp [Nat.toUInt8]; omega
    have e2 : ¬ (256 - b.length).toUInt8 ≤ 127 := by
      rw [UInt8.le_iff_toNat_le, e]
      have : (127 : UInt8).toNat = 127 := rfl
      omega
    rw [List.cons_append]
    simp only [getUint, if_neg e2, e]
    have e3 : 256 - (256 - b.length) = b.length := by omega
    rw [e3, if_neg (by omega), if_neg (by simp)]
    simp [hv]

theorem putUint_ne (x : Nat) : putUint x ≠ [] := by
  unfold putUint
  split <;> simp

theorem getInt_put (x : BitVec 64) (r : List UInt8) : getInt (putInt x ++ r) = some (x, r) := by
  unfold putInt getInt
  by_cases h : x.msb = true
  · have hx : 2 ^ 63 ≤ x.toNat := by
      rw [BitVec.msb_eq_decide] at h
      simpa using h
    have hn : (~~~x).toNat = 2 ^ 64 - 1 - x.toNat := by simp
    rw [if_pos h, getUint_put _ (by omega)]
    simp only []
    rw [if_pos (by omega)]
    have e : (2 * (~~~x).toNat + 1) / 2 = (~~~x).toNat := by omega
    rw [e, BitVec.ofNat_toNat]
    simp
  · have hx : x.toNat < 2 ^ 63 := by
      rw [BitVec.msb_eq_decide] at h
      simpa using h
    rw [if_neg h, getUint_put _ (by omega)]
    simp only []
    rw [if_neg (by omega)]
    have e : 2 * x.toNat / 2 = x.toNat := by omega
    rw [e, BitVec.ofNat_toNat]
    simp

theorem reverse_reverse (x : BitVec 64) : reverseBytes (reverseBytes x) = x := by
  apply BitVec.eq_of_getLsbD_eq
  intro i hi
  unfold reverseBytes
  interval_cases i <;> simp only [BitVec.getLsbD_append, BitVec.getLsbD_extractLsb'] <;> simp

theorem getBytes_put (b r : List UInt8) (h : b.length < 2 ^ 63) : getBytes (putBytes b ++ r) = some (b, r) := by
  unfold getBytes putBytes
  rw [List.append_assoc, getUint_put _ (by omega)]
  simp

/-! ## Values -/

theorem omitted_iff : ∀ (t : Ty) (v : t.Val), omitted t v = true ↔ nothing t v
  | .bool, v => (show ∀ v : Bool, (!v) = true ↔ v = false by decide) v
  | .int, v => (show ∀ v : BitVec 64, (v == 0) = true ↔ v = 0 by simp) v
  | .uint, v => (show ∀ v : BitVec 64, (v == 0) = true ↔ v = 0 by simp) v
  | .float, v => (show ∀ v : BitVec 64, (v == 0 || v == 0x8000000000000000#64) = true ↔ v = 0 ∨ v = 0x8000000000000000 by simp) v
  | .str, v => (show ∀ v : List UInt8, v.isEmpty = true ↔ v = [] by simp) v
  | .bytes, (none : Option (List UInt8)) => ⟨fun _ => Or.inl rfl, fun _ => rfl⟩
  | .bytes, (some [] : Option (List UInt8)) => ⟨fun _ => Or.inr rfl, fun _ => rfl⟩
  | .bytes, (some (a :: r) : Option (List UInt8)) => (show false = true ↔ some (a :: r) = none ∨ some (a :: r) = some [] by simp)
  | .slice t, (none : Option (List t.Val)) => ⟨fun _ => Or.inl rfl, fun _ => rfl⟩
  | .slice t, (some [] : Option (List t.Val)) => ⟨fun _ => Or.inr rfl, fun _ => rfl⟩
  | .slice t, (some (a :: r) : Option (List t.Val)) => (show false = true ↔ some (a :: r) = none ∨ some (a :: r) = some [] by simp)
  | .map k w, v => (show ∀ v : Option (List (k.Val × w.Val)), v.isNone = true ↔ v = none by simp) v
  | .ptr t, (none : Option t.Val) => ⟨fun _ => Or.inl rfl, fun _ => rfl⟩
  | .ptr t, (some x : Option t.Val) =>
    (show omitted t x = true ↔ some x = none ∨ ∃ y, some x = some y ∧ nothing t y by simp [omitted_iff t x])
  | .struct _, _ => (show false = true ↔ False by simp)

theorem getAll_put {α : Type} {p : α → Option (List UInt8)} {g : List UInt8 → Option (α × List UInt8)} {f : α → α} :
    ∀ (l : List α), (∀ a ∈ l, ∀ bs r, p a = some bs → g (bs ++ r) = some (f a, r)) →
      ∀ bs r, putAll p l = some bs → getAll g l.length (bs ++ r) = some (l.map f, r)
  | [], _, bs, r, h => by
    simp only [putAll, Option.some.injEq] at h
    subst h
    rfl
  | a :: l, hp, bs, r, h => by
    unfold putAll at h
    cases h1 : p a with
    | none => rw [h1] at h; simp at h
    | some x =>
      cases h2 : putAll p l with
      | none => rw [h1, h2] at h; simp at h
      | some y =>
        rw [h1, h2] at h
        simp only [Option.some.injEq] at h
        subst h
        rw [List.length_cons, getAll, List.append_assoc, hp a (by simp) x _ h1]
        simp only []
        rw [getAll_put l (fun b hb => hp b (by simp [hb])) y r h2]
        rfl

theorem map_some {α β : Type} {o : Option α} {f : α → β} {b : β} (h : o.map f = some b) : ∃ a, o = some a ∧ f a = b := by
  cases o with
  | none => simp at h
  | some a => exact ⟨a, rfl, by simpa using h⟩

theorem getFields_zero : ∀ (f : Fields) (bs : List UInt8), getFields f 0 bs = some (zeros f, bs)
  | .nil, _ => rfl
  | .cons _ _, _ => rfl

theorem uint_back (v : BitVec 64) (r : List UInt8) :
    (getUint (putUint v.toNat ++ r)).map (fun p => (BitVec.ofNat 64 p.1, p.2)) = some (v, r) := by
  rw [getUint_put _ v.isLt]
  simp

theorem float_back (v : BitVec 64) (r : List UInt8) :
    (getUint (putUint (reverseBytes v).toNat ++ r)).map (fun p => (reverseBytes (BitVec.ofNat 64 p.1), p.2)) = some (v, r) := by
  rw [getUint_put _ (reverseBytes v).isLt]
  simp [reverse_reverse]

theorem get_slice (t : Ty) (bs : List UInt8) : get (.slice t) bs = (match getUint bs with
    | none => none
    | some (n, r) => (getAll (get t) n r).map fun p => (show Option (List t.Val) from if p.1.isEmpty then none else some p.1, p.2)) := rfl

/-- Reading an entry of a map. -/
def getEntry (k w : Ty) (bs : List UInt8) : Option ((k.Val × w.Val) × List UInt8) :=
  match get k bs with
  | none => none
  | some (a, r) =>
    match get w r with
    | none => none
    | some (b, r) => some ((a, b), r)

/-- Writing an entry of a map. -/
def putEntry (k w : Ty) (e : k.Val × w.Val) : Option (List UInt8) :=
  match put k e.1, put w e.2 with
  | some x, some y => some (x ++ y)
  | _, _ => none

theorem get_map (k w : Ty) (bs : List UInt8) : get (.map k w) bs = (match getUint bs with
    | none => none
    | some (n, r) => (getAll (getEntry k w) n r).map fun p => (show Option (List (k.Val × w.Val)) from some p.1, p.2)) := rfl

theorem putFields_cons (t : Ty) (f : Fields) (gap : Nat) (v : t.Val) (w : f.Vals) :
    putFields (.cons t f) gap (v, w) = (if omitted t v then putFields f (gap + 1) w
    else
      match put t v, putFields f 1 w with
      | some x, some y => some (putUint gap ++ x ++ y)
      | _, _ => none) := rfl

open Classical in
theorem backs_cons (t : Ty) (f : Fields) (v : t.Val) (w : f.Vals) :
    backs (.cons t f) (v, w) = (if nothing t v then zero t else back t v, backs f w) := rfl

theorem delta_of {bs r : List UInt8} {d : Nat} (h : getUint bs = some (d, r)) : delta bs = some (d, r) := by
  cases bs with
  | nil => simp [getUint] at h
  | cons b s => exact h

theorem getFields_one (t : Ty) (f : Fields) (bs : List UInt8) : getFields (.cons t f) 1 bs = (match get t bs with
      | none => none
      | some (v, r) =>
        match delta r with
        | none => none
        | some (d', r') => (getFields f d' r').map fun p => ((v, p.1), p.2)) := rfl

theorem getFields_more (t : Ty) (f : Fields) (d : Nat) (bs : List UInt8) : getFields (.cons t f) (d + 2) bs =
    (getFields f (d + 1) bs).map fun p => ((zero t, p.1), p.2) := rfl

mutual
/-- What is written is read back as the specification says. -/
theorem get_put : ∀ (t : Ty) (v : t.Val) (bs r : List UInt8), Exists t v → put t v = some bs → get t (bs ++ r) = some (back t v, r)
  | .bool, (true : Bool), bs, r, _, h => by
    obtain rfl : putUint 1 = bs := Option.some.inj h
    show (getUint (putUint 1 ++ r)).map _ = _
    rw [getUint_put 1 (by omega)]
    rfl
  | .bool, (false : Bool), bs, r, _, h => by
    obtain rfl : putUint 0 = bs := Option.some.inj h
    show (getUint (putUint 0 ++ r)).map _ = _
    rw [getUint_put 0 (by omega)]
    rfl
  | .int, v, bs, r, _, h => by
    obtain rfl : putInt v = bs := Option.some.inj h
    exact getInt_put v r
  | .uint, v, bs, r, _, h => by
    obtain rfl : putUint (BitVec.toNat (w := 64) v) = bs := Option.some.inj h
    exact uint_back v r
  | .float, v, bs, r, _, h => by
    obtain rfl : putUint (reverseBytes v).toNat = bs := Option.some.inj h
    exact float_back v r
  | .str, v, bs, r, he, h => by
    obtain rfl : putBytes v = bs := Option.some.inj h
    exact getBytes_put v r he
  | .bytes, (none : Option (List UInt8)), bs, r, _, h => by
    obtain rfl : putBytes [] = bs := Option.some.inj h
    show (getBytes (putBytes [] ++ r)).map _ = _
    rw [getBytes_put [] r (by simp)]
    rfl
  | .bytes, (some [] : Option (List UInt8)), bs, r, _, h => by
    obtain rfl : putBytes [] = bs := Option.some.inj h
    show (getBytes (putBytes [] ++ r)).map _ = _
    rw [getBytes_put [] r (by simp)]
    rfl
  | .bytes, (some (a :: l) : Option (List UInt8)), bs, r, he, h => by
    obtain rfl : putBytes (a :: l) = bs := Option.some.inj h
    show (getBytes (putBytes (a :: l) ++ r)).map _ = _
    rw [getBytes_put (a :: l) r (he _ rfl)]
    rfl
  | .slice t, (none : Option (List t.Val)), bs, r, _, h => by
    obtain rfl : putUint 0 ++ [] = bs := Option.some.inj h
    rw [get_slice, List.append_assoc, getUint_put 0 (by omega)]
    rfl
  | .slice t, (some [] : Option (List t.Val)), bs, r, _, h => by
    obtain rfl : putUint 0 ++ [] = bs := Option.some.inj h
    rw [get_slice, List.append_assoc, getUint_put 0 (by omega)]
    rfl
  | .slice t, (some (a :: l) : Option (List t.Val)), bs, r, he, h => by
    have he' : (a :: l).length < 2 ^ 63 ∧ ∀ x ∈ a :: l, Exists t x := he _ rfl
    have h' : (putAll (put t) (a :: l)).map (putUint (a :: l).length ++ ·) = some bs := h
    obtain ⟨b, hb, rfl⟩ := map_some h'
    have := getAll_put (f := back t) (g := get t) (a :: l) (fun x hx bs r hp => get_put t x bs r (he'.2 x hx) hp) b r hb
    rw [get_slice, List.append_assoc, getUint_put _ (by omega)]
    simp only []
    rw [this]
    rfl
  | .map k w, (none : Option (List (k.Val × w.Val))), bs, r, _, h => by
    obtain rfl : putUint 0 ++ [] = bs := Option.some.inj h
    rw [get_map, List.append_assoc, getUint_put 0 (by omega)]
    rfl
  | .map k w, (some l : Option (List (k.Val × w.Val))), bs, r, he, h => by
    have he' : l.length < 2 ^ 63 ∧ ∀ e ∈ l, Exists k e.1 ∧ Exists w e.2 := he _ rfl
    have h' : (putAll (putEntry k w) l).map (putUint l.length ++ ·) = some bs := h
    obtain ⟨b, hb, rfl⟩ := map_some h'
    have := getAll_put (f := fun e : k.Val × w.Val => (back k e.1, back w e.2)) (g := getEntry k w) l (by
      intro e hx bs r hp
      unfold putEntry at hp
      cases h1 : put k e.1 with
      | none => rw [h1] at hp; simp at hp
      | some x =>
        cases h2 : put w e.2 with
        | none => rw [h1, h2] at hp; simp at hp
        | some y =>
          rw [h1, h2] at hp
          simp only [Option.some.injEq] at hp
          subst hp
          unfold getEntry
          rw [List.append_assoc, get_put k e.1 x _ (he'.2 e hx).1 h1]
          simp only []
          rw [get_put w e.2 y _ (he'.2 e hx).2 h2]) b r hb
    rw [get_map, List.append_assoc, getUint_put _ (by omega)]
    simp only []
    rw [this]
    rfl
  | .ptr t, (none : Option t.Val), bs, r, _, h => by
    have : (none : Option (List UInt8)) = some bs := h
    simp at this
  | .ptr t, (some x : Option t.Val), bs, r, he, h => by
    have h' : put t x = some bs := h
    show (get t (bs ++ r)).map _ = _
    rw [get_put t x bs r (he _ rfl) h']
    rfl
  | .struct f, v, bs, r, he, h => by
    obtain ⟨hc, he⟩ := he
    obtain ⟨d, r', h1, h2⟩ := getFields_put f v 1 bs r he (by omega) (by omega) h
    have e : get (.struct f) (bs ++ r) = getFields f d r' := by
      show (match delta (bs ++ r) with
        | none => none
        | some (d, r) => getFields f d r) = _
      rw [delta_of h1]
    rw [e]
    rcases h2 with ⟨rfl, h2⟩ | ⟨_, h2⟩
    · exact h2
    · exact h2

theorem getFields_put : ∀ (f : Fields) (v : f.Vals) (gap : Nat) (bs r : List UInt8), Existss f v → 1 ≤ gap → gap + count f < 2 ^ 64 →
    putFields f gap v = some bs → ∃ d r', getUint (bs ++ r) = some (d, r') ∧
      (d = 0 ∧ getFields f 0 r' = some (backs f v, r) ∨ gap ≤ d ∧ getFields f (d - (gap - 1)) r' = some (backs f v, r))
  | .nil, v, gap, bs, r, _, _, _, h => by
    obtain rfl : putUint 0 = bs := Option.some.inj h
    exact ⟨0, r, getUint_put 0 (by omega) r, Or.inl ⟨rfl, rfl⟩⟩
  | .cons t f, ((v, w) : t.Val × f.Vals), gap, bs, r, he, hg, hc, h => by
    obtain ⟨he1, he2⟩ : Exists t v ∧ Existss f w := he
    simp only [count] at hc
    rw [putFields_cons] at h
    rw [backs_cons]
    by_cases ho : omitted t v = true
    · rw [if_pos ho] at h
      rw [if_pos ((omitted_iff t v).1 ho)]
      obtain ⟨d, r', h1, h2⟩ := getFields_put f w (gap + 1) bs r he2 (by omega) (by omega) h
      refine ⟨d, r', h1, ?_⟩
      rcases h2 with ⟨rfl, h2⟩ | ⟨hd, h2⟩
      · left
        rw [getFields_zero] at h2 ⊢
        obtain ⟨e1, e2⟩ := Prod.mk.inj (Option.some.inj h2)
        refine ⟨rfl, ?_⟩
        rw [← e1, ← e2]
        rfl
      · right
        refine ⟨by omega, ?_⟩
        obtain ⟨j, hj⟩ : ∃ j, d - (gap - 1) = j + 2 := ⟨d - (gap - 1) - 2, by omega⟩
        have hj' : d - (gap + 1 - 1) = j + 1 := by omega
        rw [hj, getFields_more]
        rw [hj'] at h2
        rw [h2]
        rfl
    · rw [if_neg ho] at h
      rw [if_neg (fun hn => ho ((omitted_iff t v).2 hn))]
      cases h1 : put t v with
      | none => rw [h1] at h; simp at h
      | some x =>
        cases h2 : putFields f 1 w with
        | none => rw [h1, h2] at h; simp at h
        | some y =>
          rw [h1, h2] at h
          simp only [Option.some.injEq] at h
          subst h
          refine ⟨gap, x ++ (y ++ r), ?_, Or.inr ⟨Nat.le_refl _, ?_⟩⟩
          · rw [List.append_assoc, List.append_assoc]
            exact getUint_put gap (by omega) _
          · have e : gap - (gap - 1) = 1 := by omega
            rw [e, getFields_one, get_put t v x _ he1 h1]
            simp only []
            obtain ⟨d, r', h3, h4⟩ := getFields_put f w 1 y r he2 (by omega) (by omega) h2
            rw [delta_of h3]
            simp only []
            have : getFields f d r' = some (backs f w, r) := by
              rcases h4 with ⟨rfl, h4⟩ | ⟨_, h4⟩ <;> exact h4
            rw [this]
            rfl
end

/-! ## Which values come back unchanged -/

theorem map_id_iff {α : Type} (f : α → α) (l : List α) : l.map f = l ↔ ∀ x ∈ l, f x = x := by
  induction l with
  | nil => simp
  | cons a r ih => simp [ih]

theorem Plains_cons (t : Ty) (f : Fields) (v : t.Val) (w : f.Vals) :
    Plains (.cons t f) (v, w) = ((nothing t v ∧ v = zero t ∨ ¬ nothing t v ∧ Plain t v) ∧ Plains f w) := rfl

mutual
theorem back_eq_iff : ∀ (t : Ty) (v : t.Val), back t v = v ↔ Plain t v
  | .bool, _ => ⟨fun _ => trivial, fun _ => rfl⟩
  | .int, _ => ⟨fun _ => trivial, fun _ => rfl⟩
  | .uint, _ => ⟨fun _ => trivial, fun _ => rfl⟩
  | .float, _ => ⟨fun _ => trivial, fun _ => rfl⟩
  | .str, _ => ⟨fun _ => trivial, fun _ => rfl⟩
  | .bytes, (none : Option (List UInt8)) => (show (none : Option (List UInt8)) = none ↔ (none : Option (List UInt8)) ≠ some [] by simp)
  | .bytes, (some [] : Option (List UInt8)) => (show (none : Option (List UInt8)) = some [] ↔ (some [] : Option (List UInt8)) ≠ some [] by simp)
  | .bytes, (some (a :: r) : Option (List UInt8)) => (show some (a :: r) = some (a :: r) ↔ some (a :: r) ≠ some [] by simp)
  | .slice t, (none : Option (List t.Val)) =>
    (show (none : Option (List t.Val)) = none ↔ (none : Option (List t.Val)) ≠ some [] ∧ ∀ l, (none : Option (List t.Val)) = some l → ∀ x ∈ l, Plain t x by
      simp)
  | .slice t, (some [] : Option (List t.Val)) =>
    (show (none : Option (List t.Val)) = some [] ↔ (some [] : Option (List t.Val)) ≠ some [] ∧
        ∀ l, (some [] : Option (List t.Val)) = some l → ∀ x ∈ l, Plain t x by simp)
  | .slice t, (some (a :: r) : Option (List t.Val)) =>
    (show some ((a :: r).map (back t)) = some (a :: r) ↔ some (a :: r) ≠ some [] ∧ ∀ l, some (a :: r) = some l → ∀ x ∈ l, Plain t x by
      rw [Option.some.injEq, map_id_iff]
      constructor
      · intro h
        refine ⟨by simp, ?_⟩
        rintro l hl x hx
        obtain rfl := Option.some.inj hl
        exact (back_eq_iff t x).1 (h x hx)
      · intro h x hx
        exact (back_eq_iff t x).2 (h.2 _ rfl x hx))
  | .map k w, (none : Option (List (k.Val × w.Val))) =>
    (show (some [] : Option (List (k.Val × w.Val))) = none ↔ (none : Option (List (k.Val × w.Val))) ≠ none ∧
        ∀ l, (none : Option (List (k.Val × w.Val))) = some l → ∀ e ∈ l, Plain k e.1 ∧ Plain w e.2 by simp)
  | .map k w, (some l : Option (List (k.Val × w.Val))) =>
    (show some (l.map fun e => (back k e.1, back w e.2)) = some l ↔ some l ≠ none ∧
        ∀ l', some l = some l' → ∀ e ∈ l', Plain k e.1 ∧ Plain w e.2 by
      rw [Option.some.injEq, map_id_iff]
      constructor
      · intro h
        refine ⟨by simp, ?_⟩
        rintro l' hl e he
        obtain rfl := Option.some.inj hl
        have := h e he
        exact ⟨(back_eq_iff k e.1).1 (congrArg Prod.fst this), (back_eq_iff w e.2).1 (congrArg Prod.snd this)⟩
      · intro h e he
        have := h.2 _ rfl e he
        rw [(back_eq_iff k e.1).2 this.1, (back_eq_iff w e.2).2 this.2])
  | .ptr t, (none : Option t.Val) =>
    (show (none : Option t.Val) = none ↔ ∀ x, (none : Option t.Val) = some x → Plain t x by simp)
  | .ptr t, (some x : Option t.Val) =>
    (show some (back t x) = some x ↔ ∀ y, some x = some y → Plain t y by simp [back_eq_iff t x])
  | .struct f, v => backs_eq_iff f v
theorem backs_eq_iff : ∀ (f : Fields) (v : f.Vals), backs f v = v ↔ Plains f v
  | .nil, _ => ⟨fun _ => trivial, fun _ => rfl⟩
  | .cons t f, ((v, w) : t.Val × f.Vals) => by
    rw [backs_cons, Plains_cons]
    by_cases hn : nothing t v
    · rw [if_pos hn]
      constructor
      · intro h
        have h' := Prod.mk.inj h
        exact ⟨Or.inl ⟨hn, h'.1.symm⟩, (backs_eq_iff f w).1 h'.2⟩
      · rintro ⟨⟨_, h⟩ | ⟨h, _⟩, h2⟩
        · rw [← h, (backs_eq_iff f w).2 h2]
        · exact absurd hn h
    · rw [if_neg hn]
      constructor
      · intro h
        have h' := Prod.mk.inj h
        exact ⟨Or.inr ⟨hn, (back_eq_iff t v).1 h'.1⟩, (backs_eq_iff f w).1 h'.2⟩
      · rintro ⟨⟨h, _⟩ | ⟨_, h⟩, h2⟩
        · exact absurd h hn
        · rw [(back_eq_iff t v).2 h, (backs_eq_iff f w).2 h2]
end

theorem nothing_zero : ∀ (t : Ty) (v : t.Val), nothing t v → nothing t (zero t)
  | .bool, _, _ => rfl
  | .int, _, _ => rfl
  | .uint, _, _ => rfl
  | .float, _, _ => Or.inl rfl
  | .str, _, _ => rfl
  | .bytes, _, _ => Or.inl rfl
  | .slice _, _, _ => Or.inl rfl
  | .map _ _, _, _ => rfl
  | .ptr _, _, _ => Or.inl rfl
  | .struct _, _, h => h

theorem nothing_back : ∀ (t : Ty) (v : t.Val), ¬ nothing t v → ¬ nothing t (back t v)
  | .bool, _, h => h
  | .int, _, h => h
  | .uint, _, h => h
  | .float, _, h => h
  | .str, _, h => h
  | .bytes, (none : Option (List UInt8)), h => absurd (Or.inl rfl) h
  | .bytes, (some [] : Option (List UInt8)), h => absurd (Or.inr rfl) h
  | .bytes, (some (_ :: _) : Option (List UInt8)), h => h
  | .slice t, (none : Option (List t.Val)), h => absurd (Or.inl rfl) h
  | .slice t, (some [] : Option (List t.Val)), h => absurd (Or.inr rfl) h
  | .slice t, (some (a :: r) : Option (List t.Val)), _ =>
    (show ¬ (some ((a :: r).map (back t)) = none ∨ some ((a :: r).map (back t)) = some []) by simp)
  | .map k w, (none : Option (List (k.Val × w.Val))), h => absurd rfl h
  | .map k w, (some l : Option (List (k.Val × w.Val))), _ =>
    (show ¬ (some (l.map fun e => (back k e.1, back w e.2)) = none) by simp)
  | .ptr t, (none : Option t.Val), h => absurd (Or.inl rfl) h
  | .ptr t, (some x : Option t.Val), h => by
    have h' : ¬ nothing t x := fun hn => h (Or.inr ⟨x, rfl, hn⟩)
    have := nothing_back t x h'
    show ¬ (some (back t x) = none ∨ ∃ y, some (back t x) = some y ∧ nothing t y)
    simpa using this
  | .struct _, _, _ => fun h => h

mutual
/-- What comes back comes back unchanged the next time. -/
theorem plain_back : ∀ (t : Ty) (v : t.Val), Plain t (back t v)
  | .bool, _ => trivial
  | .int, _ => trivial
  | .uint, _ => trivial
  | .float, _ => trivial
  | .str, _ => trivial
  | .bytes, (none : Option (List UInt8)) => (show (none : Option (List UInt8)) ≠ some [] by simp)
  | .bytes, (some [] : Option (List UInt8)) => (show (none : Option (List UInt8)) ≠ some [] by simp)
  | .bytes, (some (a :: r) : Option (List UInt8)) => (show some (a :: r) ≠ some [] by simp)
  | .slice t, (none : Option (List t.Val)) =>
    (show (none : Option (List t.Val)) ≠ some [] ∧ ∀ l, (none : Option (List t.Val)) = some l → ∀ x ∈ l, Plain t x by simp)
  | .slice t, (some [] : Option (List t.Val)) =>
    (show (none : Option (List t.Val)) ≠ some [] ∧ ∀ l, (none : Option (List t.Val)) = some l → ∀ x ∈ l, Plain t x by simp)
  | .slice t, (some (a :: r) : Option (List t.Val)) =>
    (show some ((a :: r).map (back t)) ≠ some [] ∧ ∀ l, some ((a :: r).map (back t)) = some l → ∀ x ∈ l, Plain t x by
      refine ⟨by simp, ?_⟩
      rintro l hl x hx
      obtain rfl := Option.some.inj hl
      obtain ⟨y, _, rfl⟩ := List.mem_map.1 hx
      exact plain_back t y)
  | .map k w, (none : Option (List (k.Val × w.Val))) =>
    (show (some [] : Option (List (k.Val × w.Val))) ≠ none ∧
        ∀ l, (some [] : Option (List (k.Val × w.Val))) = some l → ∀ e ∈ l, Plain k e.1 ∧ Plain w e.2 by simp)
  | .map k w, (some l : Option (List (k.Val × w.Val))) =>
    (show some (l.map fun e => (back k e.1, back w e.2)) ≠ none ∧
        ∀ l', some (l.map fun e => (back k e.1, back w e.2)) = some l' → ∀ e ∈ l', Plain k e.1 ∧ Plain w e.2 by
      refine ⟨by simp, ?_⟩
      rintro l' hl e he
      obtain rfl := Option.some.inj hl
      obtain ⟨y, _, rfl⟩ := List.mem_map.1 he
      exact ⟨plain_back k y.1, plain_back w y.2⟩)
  | .ptr t, (none : Option t.Val) => (show ∀ x, (none : Option t.Val) = some x → Plain t x by simp)
  | .ptr t, (some x : Option t.Val) => (show ∀ y, some (back t x) = some y → Plain t y by
      intro y hy
      obtain rfl := Option.some.inj hy
      exact plain_back t x)
  | .struct f, v => plains_back f v
theorem plains_back : ∀ (f : Fields) (v : f.Vals), Plains f (backs f v)
  | .nil, _ => trivial
  | .cons t f, ((v, w) : t.Val × f.Vals) => by
    rw [backs_cons, Plains_cons]
    refine ⟨?_, plains_back f w⟩
    by_cases hn : nothing t v
    · rw [if_pos hn]
      exact Or.inl ⟨nothing_zero t v hn, rfl⟩
    · rw [if_neg hn]
      exact Or.inr ⟨nothing_back t v hn, plain_back t v⟩
end

/-! ## Which values cannot be encoded -/

theorem putAll_none {α : Type} (p : α → Option (List UInt8)) : ∀ l : List α, putAll p l = none ↔ ∃ x ∈ l, p x = none
  | [] => by simp [putAll]
  | a :: r => by
    unfold putAll
    have ih := putAll_none p r
    cases h1 : p a with
    | none => simp [h1]
    | some x =>
      cases h2 : putAll p r with
      | none =>
        obtain ⟨y, hy, h⟩ := ih.1 h2
        simp only [true_iff]
        exact ⟨y, by simp [hy], h⟩
      | some y =>
        simp only [reduceCtorEq, false_iff]
        rintro ⟨z, hz, h⟩
        rcases List.mem_cons.1 hz with rfl | hz
        · rw [h1] at h; simp at h
        · rw [ih.2 ⟨z, hz, h⟩] at h2; simp at h2

theorem nothing_whole : ∀ (t : Ty) (v : t.Val), nothing t v → ¬ NilElement t v
  | .bool, _, _ => fun h => h
  | .int, _, _ => fun h => h
  | .uint, _, _ => fun h => h
  | .float, _, _ => fun h => h
  | .str, _, _ => fun h => h
  | .bytes, _, _ => fun h => h
  | .slice t, v, h => by
    rintro ⟨l, hl, x, hx, _⟩
    rcases h with h | h
    · have := hl.symm.trans h
      simp at this
    · have := hl.symm.trans h
      obtain rfl := Option.some.inj this
      simp at hx
  | .map k w, v, h => by
    rintro ⟨l, hl, _⟩
    have := hl.symm.trans h
    simp at this
  | .ptr t, v, h => by
    rintro ⟨x, hx, hn⟩
    rcases h with h | ⟨y, h, h'⟩
    · have := hx.symm.trans h
      simp at this
    · have := hx.symm.trans h
      obtain rfl := Option.some.inj this
      exact nothing_whole t _ h' hn
  | .struct _, _, h => h.elim

theorem omitted_nil : ∀ (t : Ty) (v : t.Val), nilPtr t v = true → nothing t v
  | .bool, _, h => nomatch h
  | .int, _, h => nomatch h
  | .uint, _, h => nomatch h
  | .float, _, h => nomatch h
  | .str, _, h => nomatch h
  | .bytes, _, h => nomatch h
  | .slice _, _, h => nomatch h
  | .map _ _, _, h => nomatch h
  | .ptr t, (none : Option t.Val), _ => Or.inl rfl
  | .ptr t, (some x : Option t.Val), h => Or.inr ⟨x, rfl, omitted_nil t x h⟩
  | .struct _, _, h => nomatch h

mutual
theorem put_none : ∀ (t : Ty) (v : t.Val), put t v = none ↔ nilPtr t v = true ∨ NilElement t v
  | .bool, v => ⟨fun h => (nomatch h), fun h => h.elim (fun h => nomatch h) (fun h => h.elim)⟩
  | .int, v => ⟨fun h => (nomatch h), fun h => h.elim (fun h => nomatch h) (fun h => h.elim)⟩
  | .uint, v => ⟨fun h => (nomatch h), fun h => h.elim (fun h => nomatch h) (fun h => h.elim)⟩
  | .float, v => ⟨fun h => (nomatch h), fun h => h.elim (fun h => nomatch h) (fun h => h.elim)⟩
  | .str, v => ⟨fun h => (nomatch h), fun h => h.elim (fun h => nomatch h) (fun h => h.elim)⟩
  | .bytes, v => ⟨fun h => (nomatch h), fun h => h.elim (fun h => nomatch h) (fun h => h.elim)⟩
  | .slice t, (none : Option (List t.Val)) =>
    (show (some (putUint 0 ++ []) : Option (List UInt8)) = none ↔ false = true ∨ ∃ l, (none : Option (List t.Val)) = some l ∧ ∃ x ∈ l, nilPtr t x = true ∨ NilElement t x by
      simp)
  | .slice t, (some l : Option (List t.Val)) =>
    (show (putAll (put t) l).map (putUint l.length ++ ·) = none ↔ false = true ∨ ∃ l', some l = some l' ∧ ∃ x ∈ l', nilPtr t x = true ∨ NilElement t x by
      rw [Option.map_eq_none_iff, putAll_none]
      constructor
      · rintro ⟨x, hx, h⟩
        exact Or.inr ⟨l, rfl, x, hx, (put_none t x).1 h⟩
      · rintro (h | ⟨l', hl, x, hx, h⟩)
        · simp at h
        · obtain rfl := Option.some.inj hl
          exact ⟨x, hx, (put_none t x).2 h⟩)
  | .map k w, (none : Option (List (k.Val × w.Val))) =>
    (show (some (putUint 0 ++ []) : Option (List UInt8)) = none ↔ false = true ∨ ∃ l, (none : Option (List (k.Val × w.Val))) = some l ∧
        ∃ e ∈ l, (nilPtr k e.1 = true ∨ NilElement k e.1) ∨ (nilPtr w e.2 = true ∨ NilElement w e.2) by simp)
  | .map k w, (some l : Option (List (k.Val × w.Val))) =>
    (show (putAll (putEntry k w) l).map (putUint l.length ++ ·) = none ↔ false = true ∨ ∃ l', some l = some l' ∧
        ∃ e ∈ l', (nilPtr k e.1 = true ∨ NilElement k e.1) ∨ (nilPtr w e.2 = true ∨ NilElement w e.2) by
      have he : ∀ e : k.Val × w.Val, putEntry k w e = none ↔ put k e.1 = none ∨ put w e.2 = none := by
        intro e
        unfold putEntry
        cases put k e.1 <;> cases put w e.2 <;> simp
      rw [Option.map_eq_none_iff, putAll_none]
      constructor
      · rintro ⟨e, hx, h⟩
        exact Or.inr ⟨l, rfl, e, hx, ((he e).1 h).imp (put_none k e.1).1 (put_none w e.2).1⟩
      · rintro (h | ⟨l', hl, e, hx, h⟩)
        · simp at h
        · obtain rfl := Option.some.inj hl
          exact ⟨e, hx, (he e).2 (h.imp (put_none k e.1).2 (put_none w e.2).2)⟩)
  | .ptr t, (none : Option t.Val) => ⟨fun _ => Or.inl rfl, fun _ => rfl⟩
  | .ptr t, (some x : Option t.Val) =>
    (show put t x = none ↔ nilPtr t x = true ∨ ∃ y, some x = some y ∧ NilElement t y by
      rw [put_none t x]
      simp)
  | .struct f, v => by
    have := putFields_none f v 1
    exact ⟨fun h => Or.inr (this.1 h), fun h => this.2 (h.elim (fun h => nomatch h) id)⟩
theorem putFields_none : ∀ (f : Fields) (v : f.Vals) (gap : Nat), putFields f gap v = none ↔ NilElements f v
  | .nil, _, _ => ⟨fun h => (nomatch h), fun h => h.elim⟩
  | .cons t f, ((v, w) : t.Val × f.Vals), gap => by
    have e : NilElements (.cons t f) (v, w) = (NilElement t v ∨ NilElements f w) := rfl
    rw [putFields_cons, e]
    by_cases ho : omitted t v = true
    · rw [if_pos ho, putFields_none f w (gap + 1)]
      exact ⟨Or.inr, fun h => h.elim (fun h => absurd h (nothing_whole t v ((omitted_iff t v).1 ho))) id⟩
    · rw [if_neg ho]
      have h1 := put_none t v
      have h2 := putFields_none f w 1
      have h3 : nilPtr t v ≠ true := fun h => ho ((omitted_iff t v).2 (omitted_nil t v h))
      cases hp : put t v with
      | none =>
        simp only [true_iff]
        exact (h1.1 hp).elim (fun h => absurd h h3) Or.inl
      | some x =>
        have h4 : ¬ NilElement t v := fun h => by rw [h1.2 (Or.inr h)] at hp; simp at hp
        cases hq : putFields f 1 w with
        | none =>
          simp only [true_iff]
          exact Or.inr (h2.1 hq)
        | some y =>
          simp only [reduceCtorEq, false_iff]
          rintro (h | h)
          · exact h4 h
          · rw [h2.2 h] at hq; simp at hq
end

end Gofer.Gob
