import Verif.Spec.GobType
import Verif.Proof.Gob

/-! # Values of one type read as another: helper lemmas -/
namespace Gofer.GobType
open Gofer.Gob Gofer.Spec.Gob Gofer.Spec.GobType

mutual
/-- The type as a stream describes it. -/
def wireOf : GTy → Wire
  | .bool => .bool
  | .int _ => .int
  | .uint _ => .uint
  | .float => .float
  | .str => .str
  | .bytes => .bytes
  | .slice t => .slice (wireOf t)
  | .map k e => .map (wireOf k) (wireOf e)
  | .ptr t => wireOf t
  | .struct _ f => .struct (wires f)
def wires : GFields → WFields
  | .nil => .nil
  | .cons n t f => .cons n (wireOf t) (wires f)
end

/-! ## Which types fit -/

theorem base_ne : ∀ (t u : GTy), t.base ≠ .ptr u
  | .ptr t, u => base_ne t u
  | .bool, u => by simp [GTy.base]
  | .int _, u => by simp [GTy.base]
  | .uint _, u => by simp [GTy.base]
  | .float, u => by simp [GTy.base]
  | .str, u => by simp [GTy.base]
  | .bytes, u => by simp [GTy.base]
  | .slice _, u => by simp [GTy.base]
  | .map _ _, u => by simp [GTy.base]
  | .struct _ _, u => by simp [GTy.base]

theorem fits_base : ∀ (t s : GTy), Fits t s ↔ Fits t.base s
  | .ptr t, s => fits_base t s
  | .bool, s => Iff.rfl
  | .int _, s => Iff.rfl
  | .uint _, s => Iff.rfl
  | .float, s => Iff.rfl
  | .str, s => Iff.rfl
  | .bytes, s => Iff.rfl
  | .slice _, s => Iff.rfl
  | .map _ _, s => Iff.rfl
  | .struct _ _, s => Iff.rfl

theorem proper_base : ∀ t : GTy, Proper t → Proper t.base
  | .ptr t, h => proper_base t h
  | .bool, h => h
  | .int _, h => h
  | .uint _, h => h
  | .float, h => h
  | .str, h => h
  | .bytes, h => h
  | .slice _, h => h
  | .map _ _, h => h
  | .struct _ _, h => h

theorem find_none : ∀ (f : GFields) (n : Name), find f n = none ↔ n ∉ names f
  | .nil, n => by simp [find, names]
  | .cons m t f, n => by
    unfold find names
    by_cases h : m = n
    · simp [h]
    · rw [if_neg h, find_none f n]
      simp [Ne.symm h]

theorem find_proper : ∀ (f : GFields) (n : Name) (t : GTy), Propers f → find f n = some t → Proper t
  | .nil, n, t, _, h => by simp [find] at h
  | .cons m u f, n, t, hp, h => by
    unfold find at h
    split at h
    · obtain rfl := Option.some.inj h
      exact hp.2.2.1
    · exact find_proper f n t hp.2.2.2 h

theorem fitsFields_iff : ∀ (sf f : GFields), Propers sf → (fitsFields (wires sf) f = true ↔
    ∀ n s t, find sf n = some s → find f n = some t → fits (wireOf s) t.base = true)
  | .nil, f, _ => by simp [wires, fitsFields, find]
  | .cons m u sf, f, hp => by
    rw [wires, fitsFields, Bool.and_eq_true, fitsFields_iff sf f hp.2.2.2]
    constructor
    · rintro ⟨h1, h2⟩ n s t hs ht
      unfold find at hs
      by_cases h : m = n
      · rw [if_pos h] at hs
        obtain rfl := Option.some.inj hs
        subst h
        rw [ht] at h1
        exact h1
      · rw [if_neg h] at hs
        exact h2 n s t hs ht
    · intro h
      refine ⟨?_, fun n s t hs ht => h n s t ?_ ht⟩
      · cases e : find f m with
        | none => rfl
        | some t => exact h m u t (by simp [find]) e
      · unfold find
        have : m ≠ n := by
          rintro rfl
          rw [(find_none sf m).2 hp.1] at hs
          simp at hs
        rw [if_neg this, hs]

theorem Fitss_iff : ∀ (f sf : GFields), Propers f → (Fitss f sf ↔ ∀ n s t, find sf n = some s → find f n = some t → Fits t s)
  | .nil, sf, _ => by simp [Fitss, find]
  | .cons m u f, sf, hp => by
    rw [Fitss, Fitss_iff f sf hp.2.2.2]
    constructor
    · rintro ⟨h1, h2⟩ n s t hs ht
      unfold find at ht
      by_cases h : m = n
      · rw [if_pos h] at ht
        obtain rfl := Option.some.inj ht
        subst h
        exact h1 s hs
      · rw [if_neg h] at ht
        exact h2 n s t hs ht
    · intro h
      refine ⟨fun s hs => h m s u hs (by simp [find]), fun n s t hs ht => h n s t hs ?_⟩
      unfold find
      have : m ≠ n := by
        rintro rfl
        rw [(find_none f m).2 hp.1] at ht
        simp at ht
      rw [if_neg this, ht]

mutual
theorem fits_iff : ∀ (s t : GTy), Proper s → Proper t → (fits (wireOf s) t.base = true ↔ Fits t s)
  | .ptr s, t, hs, ht => by
    rw [show wireOf (.ptr s) = wireOf s from rfl, fits_iff s t hs ht, fits_base t s, fits_base t (.ptr s)]
    have hb := base_ne t
    revert hb
    generalize t.base = b
    intro hb
    cases b <;> first | exact absurd rfl (hb _) | exact Iff.rfl
  | .bool, t, hs, ht => by
    rw [fits_base t]
    have hb := base_ne t
    revert hb
    generalize t.base = b
    intro hb
    cases b <;> first | exact absurd rfl (hb _) | simp [wireOf, fits, Fits, GTy.base]
  | .int _, t, hs, ht => by
    rw [fits_base t]
    have hb := base_ne t
    revert hb
    generalize t.base = b
    intro hb
    cases b <;> first | exact absurd rfl (hb _) | simp [wireOf, fits, Fits, GTy.base]
  | .uint _, t, hs, ht => by
    rw [fits_base t]
    have hb := base_ne t
    revert hb
    generalize t.base = b
    intro hb
    cases b <;> first | exact absurd rfl (hb _) | simp [wireOf, fits, Fits, GTy.base]
  | .float, t, hs, ht => by
    rw [fits_base t]
    have hb := base_ne t
    revert hb
    generalize t.base = b
    intro hb
    cases b <;> first | exact absurd rfl (hb _) | simp [wireOf, fits, Fits, GTy.base]
  | .str, t, hs, ht => by
    rw [fits_base t]
    have hb := base_ne t
    revert hb
    generalize t.base = b
    intro hb
    cases b <;> first | exact absurd rfl (hb _) | simp [wireOf, fits, Fits, GTy.base]
  | .bytes, t, hs, ht => by
    rw [fits_base t]
    have hb := base_ne t
    revert hb
    generalize t.base = b
    intro hb
    cases b <;> first | exact absurd rfl (hb _) | simp [wireOf, fits, Fits, GTy.base]
  | .slice s, t, hs, ht => by
    rw [fits_base t]
    have hb := base_ne t
    have hp := proper_base t ht
    revert hb hp
    generalize t.base = b
    intro hb hp
    cases b with
    | ptr u => exact absurd rfl (hb _)
    | slice u => simp [wireOf, fits, Fits, GTy.base, fits_iff s u hs hp]
    | _ => simp [wireOf, fits, Fits, GTy.base]
  | .map k e, t, hs, ht => by
    rw [fits_base t]
    have hb := base_ne t
    have hp := proper_base t ht
    revert hb hp
    generalize t.base = b
    intro hb hp
    cases b with
    | ptr u => exact absurd rfl (hb _)
    | map k' e' => simp [wireOf, fits, Fits, GTy.base, fits_iff k k' hs.1 hp.1, fits_iff e e' hs.2 hp.2]
    | _ => simp [wireOf, fits, Fits, GTy.base]
  | .struct n sf, t, hs, ht => by
    rw [fits_base t]
    have hb := base_ne t
    have hp := proper_base t ht
    revert hb hp
    generalize t.base = b
    intro hb hp
    cases b with
    | ptr u => exact absurd rfl (hb _)
    | struct m f =>
      have e : Fits (.struct m f) (.struct n sf) ↔ Fitss f sf := by
        show (∃ n' f', GTy.struct n sf = .struct n' f' ∧ Fitss f f') ↔ _
        constructor
        · rintro ⟨_, _, h, h'⟩
          cases h
          exact h'
        · exact fun h => ⟨_, _, rfl, h⟩
      rw [e, show fits (wireOf (.struct n sf)) (.struct m f) = fitsFields (wires sf) f from rfl, fitsFields_iff sf f hs.2, Fitss_iff f sf hp.2]
      constructor
      · exact fun h n s t h1 h2 => (fitss_iff sf f hs.2 hp.2 n s t h1 h2).1 (h n s t h1 h2)
      · exact fun h n s t h1 h2 => (fitss_iff sf f hs.2 hp.2 n s t h1 h2).2 (h n s t h1 h2)
    | _ => simp [wireOf, fits, Fits, GTy.base]
theorem fitss_iff : ∀ (sf f : GFields), Propers sf → Propers f → ∀ n s t, find sf n = some s → find f n = some t →
    (fits (wireOf s) t.base = true ↔ Fits t s)
  | .nil, f, _, _, n, s, t, h, _ => by simp [find] at h
  | .cons m u sf, f, hs, hf, n, s, t, h, ht => by
    by_cases e : m = n
    · have : u = s := by simpa [find, e] using h
      subst this
      exact fits_iff u t hs.2.2.1 (find_proper f n t hf ht)
    · have : find sf n = some s := by simpa [find, e] using h
      exact fitss_iff sf f hs.2.2.2 hf n s t this ht
end

/-! ## Skipping -/

theorem skipAll {α : Type} {p : α → Option (List UInt8)} {g : List UInt8 → Option (Unit × List UInt8)} :
    ∀ (l : List α), (∀ a ∈ l, ∀ bs r, p a = some bs → g (bs ++ r) = some ((), r)) →
      ∀ bs r, putAll p l = some bs → (getAll g l.length (bs ++ r)).map (·.2) = some r := by
  intro l h bs r hp
  induction l generalizing bs with
  | nil =>
    obtain rfl : [] = bs := Option.some.inj hp
    rfl
  | cons a l ih =>
    unfold putAll at hp
    cases h1 : p a with
    | none => rw [h1] at hp; simp at hp
    | some x =>
      cases h2 : putAll p l with
      | none => rw [h1, h2] at hp; simp at hp
      | some y =>
        rw [h1, h2] at hp
        obtain rfl : x ++ y = bs := Option.some.inj hp
        have := ih (fun b hb => h b (by simp [hb])) y h2
        obtain ⟨q, h3, h4⟩ := map_some this
        rw [List.length_cons, getAll, List.append_assoc, h a (by simp) x _ h1]
        simp only [h3]
        simpa using h4

theorem putInt_uint (x : BitVec 64) (r : List UInt8) : (getUint (putInt x ++ r)).map (·.2) = some r := by
  have := getInt_put x r
  unfold getInt at this
  cases e : getUint (putInt x ++ r) with
  | none => rw [e] at this; simp at this
  | some p =>
    rw [e] at this
    simp only at this
    split at this <;> simp_all

theorem putEntry_some {k w : Ty} {e : k.Val × w.Val} {bs : List UInt8} (h : putEntry k w e = some bs) :
    ∃ x y, put k e.1 = some x ∧ put w e.2 = some y ∧ bs = x ++ y := by
  unfold putEntry at h
  cases h1 : put k e.1 with
  | none => rw [h1] at h; simp at h
  | some x =>
    cases h2 : put w e.2 with
    | none => rw [h1, h2] at h; simp at h
    | some y =>
      rw [h1, h2] at h
      exact ⟨x, y, rfl, rfl, (Option.some.inj h).symm⟩

theorem skip_slice (w : Wire) (bs : List UInt8) : skip (.slice w) bs = (match getUint bs with
    | none => none
    | some (n, r) => (getAll (fun bs => (skip w bs).map fun r => ((), r)) n r).map (·.2)) := rfl

theorem skip_map (wk we : Wire) (bs : List UInt8) : skip (.map wk we) bs = (match getUint bs with
    | none => none
    | some (n, r) => (getAll (fun bs => (skip wk bs).bind fun r => (skip we r).map fun r => ((), r)) n r).map (·.2)) := rfl

theorem skipFields_zero (wf : WFields) (bs : List UInt8) : skipFields wf 0 bs = some bs := by
  cases wf <;> rfl

theorem skipFields_one (n : Name) (w : Wire) (wf : WFields) (bs : List UInt8) : skipFields (.cons n w wf) 1 bs = (match skip w bs with
      | none => none
      | some r =>
        match delta r with
        | none => none
        | some (d', r') => skipFields wf d' r') := rfl

mutual
theorem skip_put : ∀ (s : GTy) (v : s.ty.Val) (bs r : List UInt8), Exists s.ty v → put s.ty v = some bs → skip (wireOf s) (bs ++ r) = some r
  | .bool, v, bs, r, _, h => by
    obtain rfl : putUint (if (show Bool from v) then 1 else 0) = bs := Option.some.inj h
    show (getUint _).map _ = _
    rw [getUint_put _ (by split <;> omega)]
    rfl
  | .int _, v, bs, r, _, h => by
    obtain rfl : putInt v = bs := Option.some.inj h
    exact putInt_uint v r
  | .uint _, v, bs, r, _, h => by
    obtain rfl : putUint (BitVec.toNat (w := 64) v) = bs := Option.some.inj h
    show (getUint _).map _ = _
    rw [getUint_put _ (BitVec.isLt (w := 64) v)]
    rfl
  | .float, v, bs, r, _, h => by
    obtain rfl : putUint (reverseBytes v).toNat = bs := Option.some.inj h
    show (getUint _).map _ = _
    rw [getUint_put _ (reverseBytes v).isLt]
    rfl
  | .str, v, bs, r, he, h => by
    obtain rfl : putBytes v = bs := Option.some.inj h
    show (getBytes _).map _ = _
    rw [getBytes_put v r he]
    rfl
  | .bytes, (none : Option (List UInt8)), bs, r, _, h => by
    obtain rfl : putBytes [] = bs := Option.some.inj h
    show (getBytes _).map _ = _
    rw [getBytes_put [] r (by simp)]
    rfl
  | .bytes, (some l : Option (List UInt8)), bs, r, he, h => by
    obtain rfl : putBytes l = bs := Option.some.inj h
    show (getBytes _).map _ = _
    rw [getBytes_put l r (he _ rfl)]
    rfl
  | .slice s, (none : Option (List s.ty.Val)), bs, r, _, h => by
    obtain rfl : putUint 0 ++ [] = bs := Option.some.inj h
    rw [wireOf, skip_slice, List.append_assoc, getUint_put 0 (by omega)]
    rfl
  | .slice s, (some l : Option (List s.ty.Val)), bs, r, he, h => by
    have he' : l.length < 2 ^ 63 ∧ ∀ x ∈ l, Exists s.ty x := he _ rfl
    have h' : (putAll (put s.ty) l).map (putUint l.length ++ ·) = some bs := h
    obtain ⟨b, hb, rfl⟩ := map_some h'
    rw [wireOf, skip_slice, List.append_assoc, getUint_put _ (by omega)]
    exact skipAll l (fun x hx bs r hp => by simp only [skip_put s x bs r (he'.2 x hx) hp, Option.map_some]) b r hb
  | .map k e, (none : Option (List (k.ty.Val × e.ty.Val))), bs, r, _, h => by
    obtain rfl : putUint 0 ++ [] = bs := Option.some.inj h
    rw [wireOf, skip_map, List.append_assoc, getUint_put 0 (by omega)]
    rfl
  | .map k e, (some l : Option (List (k.ty.Val × e.ty.Val))), bs, r, he, h => by
    have he' : l.length < 2 ^ 63 ∧ ∀ x ∈ l, Exists k.ty x.1 ∧ Exists e.ty x.2 := he _ rfl
    have h' : (putAll (putEntry k.ty e.ty) l).map (putUint l.length ++ ·) = some bs := h
    obtain ⟨b, hb, rfl⟩ := map_some h'
    rw [wireOf, skip_map, List.append_assoc, getUint_put _ (by omega)]
    refine skipAll l (fun x hx bs r hp => ?_) b r hb
    obtain ⟨y, z, h1, h2, rfl⟩ := putEntry_some hp
    rw [List.append_assoc, skip_put k x.1 y _ (he'.2 x hx).1 h1, Option.bind_some, skip_put e x.2 z _ (he'.2 x hx).2 h2]
    rfl
  | .ptr s, (none : Option s.ty.Val), bs, r, _, h => by
    have : (none : Option (List UInt8)) = some bs := h
    simp at this
  | .ptr s, (some x : Option s.ty.Val), bs, r, he, h => skip_put s x bs r (he _ rfl) h
  | .struct n f, v, bs, r, he, h => by
    obtain ⟨hc, he⟩ := he
    obtain ⟨d, r', h1, h2⟩ := skipFields_put f v 1 bs r he (by omega) (by omega) h
    have e : skip (wireOf (.struct n f)) (bs ++ r) = skipFields (wires f) d r' := by
      show (match delta (bs ++ r) with
        | none => none
        | some (d, r) => skipFields (wires f) d r) = _
      rw [delta_of h1]
    rw [e]
    rcases h2 with ⟨rfl, h2⟩ | ⟨_, h2⟩
    · exact h2
    · exact h2
theorem skipFields_put : ∀ (f : GFields) (v : f.ty.Vals) (gap : Nat) (bs r : List UInt8), Existss f.ty v → 1 ≤ gap → gap + count f.ty < 2 ^ 64 →
    putFields f.ty gap v = some bs → ∃ d r', getUint (bs ++ r) = some (d, r') ∧
      (d = 0 ∧ skipFields (wires f) 0 r' = some r ∨ gap ≤ d ∧ skipFields (wires f) (d - (gap - 1)) r' = some r)
  | .nil, v, gap, bs, r, _, _, _, h => by
    obtain rfl : putUint 0 = bs := Option.some.inj h
    exact ⟨0, r, getUint_put 0 (by omega) r, Or.inl ⟨rfl, rfl⟩⟩
  | .cons n t f, ((v, w) : t.ty.Val × f.ty.Vals), gap, bs, r, he, hg, hc, h => by
    obtain ⟨he1, he2⟩ : Exists t.ty v ∧ Existss f.ty w := he
    have hc : gap + (count f.ty + 1) < 2 ^ 64 := hc
    replace h : putFields (.cons t.ty f.ty) gap (v, w) = some bs := h
    rw [putFields_cons] at h
    by_cases ho : omitted t.ty v = true
    · rw [if_pos ho] at h
      obtain ⟨d, r', h1, h2⟩ := skipFields_put f w (gap + 1) bs r he2 (by omega) (by omega) h
      refine ⟨d, r', h1, ?_⟩
      rcases h2 with ⟨rfl, h2⟩ | ⟨hd, h2⟩
      · left
        rw [skipFields_zero] at h2 ⊢
        exact ⟨rfl, h2⟩
      · right
        refine ⟨by omega, ?_⟩
        obtain ⟨j, hj⟩ : ∃ j, d - (gap - 1) = j + 2 := ⟨d - (gap - 1) - 2, by omega⟩
        have hj' : d - (gap + 1 - 1) = j + 1 := by omega
        rw [hj' ] at h2
        rw [hj]
        exact h2
    · rw [if_neg ho] at h
      cases h1 : put t.ty v with
      | none => rw [h1] at h; simp at h
      | some x =>
        cases h2 : putFields f.ty 1 w with
        | none => rw [h1, h2] at h; simp at h
        | some y =>
          rw [h1, h2] at h
          simp only [Option.some.injEq] at h
          subst h
          refine ⟨gap, x ++ (y ++ r), ?_, Or.inr ⟨Nat.le_refl _, ?_⟩⟩
          · rw [List.append_assoc, List.append_assoc]
            exact getUint_put gap (by omega) _
          · have e : gap - (gap - 1) = 1 := by omega
            rw [e, wires, skipFields_one, skip_put t v x _ he1 h1]
            simp only []
            obtain ⟨d, r', h3, h4⟩ := skipFields_put f w 1 y r he2 (by omega) (by omega) h2
            rw [delta_of h3]
            simp only []
            rcases h4 with ⟨rfl, h4⟩ | ⟨_, h4⟩ <;> exact h4
end

end Gofer.GobType
