import Verif.Proof.GobDefs

/-! # `Encode` as one type and `Decode` as another: helper lemmas -/
namespace Gofer.GobType
open Gofer.Gob Gofer.Spec.Gob Gofer.Spec.GobType Gofer.GobStream

/-! ## Structs without a field in common -/

theorem wireOf_base : ∀ s : GTy, wireOf s = wireOf s.base
  | .ptr s => wireOf_base s
  | .bool => rfl
  | .int _ => rfl
  | .uint _ => rfl
  | .float => rfl
  | .str => rfl
  | .bytes => rfl
  | .slice _ => rfl
  | .map _ _ => rfl
  | .struct _ _ => rfl

theorem go_iff : ∀ (sf f : GFields), noneMatched.go (wires sf) f = true ↔ ∀ m ∈ names sf, m ∉ names f
  | .nil, f => by simp [wires, noneMatched.go, names]
  | .cons n t sf, f => by
    rw [wires, noneMatched.go, Bool.and_eq_true, go_iff sf f, Option.isNone_iff_eq_none, find_none]
    simp [names]

theorem none_struct (wf : WFields) (n : Name) (f : GFields) : noneMatched (.struct wf) (.struct n f) =
    (noneMatched.go wf f && (match wf with | .nil => false | _ => true) && (match f with | .nil => false | _ => true)) := rfl

theorem none_base (b c : GTy) (hc : ∀ u, c ≠ .ptr u) : noneMatched (wireOf c) b = true ↔
    ∃ n f n' f', b = .struct n f ∧ c = .struct n' f' ∧ names f ≠ [] ∧ names f' ≠ [] ∧ ∀ m ∈ names f, m ∉ names f' := by
  constructor
  · intro h
    cases c <;> first
      | exact absurd (show false = true from h) Bool.false_ne_true
      | exact absurd rfl (hc _)
      | skip
    rename_i n' f'
    cases b <;> first
      | exact absurd (show false = true from h) Bool.false_ne_true
      | skip
    rename_i n f
    refine ⟨n, f, n', f', rfl, rfl, ?_⟩
    rw [wireOf, none_struct, Bool.and_eq_true, Bool.and_eq_true, go_iff] at h
    obtain ⟨⟨h1, h2⟩, h3⟩ := h
    refine ⟨?_, ?_, fun m hm hm' => h1 m hm' hm⟩
    · cases f
      · exact absurd (show false = true from h3) Bool.false_ne_true
      · simp [names]
    · cases f'
      · exact absurd (show false = true from h2) Bool.false_ne_true
      · simp [names]
  · rintro ⟨n, f, n', f', rfl, rfl, h1, h2, h3⟩
    rw [wireOf, none_struct, Bool.and_eq_true, Bool.and_eq_true, go_iff]
    refine ⟨⟨fun m hm hm' => h3 m hm' hm, ?_⟩, ?_⟩
    · cases f'
      · simp [names] at h2
      · rfl
    · cases f
      · simp [names] at h1
      · rfl

theorem noneMatched_iff (s t : GTy) : noneMatched (wireOf s) t.base = true ↔ Strangers t s := by
  rw [wireOf_base]
  exact none_base t.base s.base (base_ne s)

/-! ## Structs on both sides -/

theorem struct_base : ∀ t : GTy, isStruct t.ty = true ↔ ∃ n f, t.base = .struct n f
  | .ptr t => struct_base t
  | .bool => by simp [GTy.ty, isStruct, GTy.base]
  | .int _ => by simp [GTy.ty, isStruct, GTy.base]
  | .uint _ => by simp [GTy.ty, isStruct, GTy.base]
  | .float => by simp [GTy.ty, isStruct, GTy.base]
  | .str => by simp [GTy.ty, isStruct, GTy.base]
  | .bytes => by simp [GTy.ty, isStruct, GTy.base]
  | .slice _ => by simp [GTy.ty, isStruct, GTy.base]
  | .map _ _ => by simp [GTy.ty, isStruct, GTy.base]
  | .struct n f => by simp [GTy.ty, isStruct, GTy.base]

theorem struct_both (t s : GTy) (h : Fits t s) : isStruct t.ty = isStruct s.ty := by
  rw [Bool.eq_iff_iff, struct_base, struct_base]
  rw [fits_base] at h
  have hb := base_ne t
  revert h hb
  generalize t.base = b
  intro h hb
  cases b <;> first
    | exact absurd rfl (hb _)
    | (simp only [Fits] at h; first
        | (simp [h]; done)
        | (obtain ⟨_, h⟩ := h; simp [h]; done)
        | (obtain ⟨_, h, _⟩ := h; simp [h]; done)
        | (obtain ⟨_, _, h, _⟩ := h; simp [h]; done))

/-! ## All of it -/

theorem decode_as (reg : Registry) (s t : GTy) (hr : Spec.GobType.Lawful reg s) (hs : Proper s) (ht : Proper t) (v : s.ty.Val) (he : Exists s.ty v)
    (bs : List UInt8) (h : encodeAs reg s v = .done bs false) (r : List UInt8) (w : t.ty.Val) :
    decodeAs t (bs ++ r) = some w ↔ Fits t s ∧ ¬ Strangers t s ∧ Came t s v w := by
  have hl := lib_lawful reg s hr
  have hn : nilPtr s.ty v = false := by
    cases hp : nilPtr s.ty v with
    | false => rfl
    | true =>
      unfold encodeAs encode at h
      rw [if_pos hp] at h
      simp at h
  rcases encode_cases (lib reg s) s.ty v hn with ⟨b, h1, h2, h3⟩ | ⟨_, h3⟩
  · rw [encodeAs, h3] at h
    obtain rfl : definitions (lib reg s) s.ty ++ message b = bs := by simpa using h
    unfold body at h1
    obtain ⟨p, hp, rfl⟩ := map_some h1
    have e : definitions (lib reg s) s.ty ++ message (putInt ((lib reg s).id s.ty) ++ (if isStruct s.ty = true then [] else putUint 0) ++ p) ++ r =
        stream (send reg s []).1 ++ (message (putInt (reg.of s) ++ ((if isStruct s.ty = true then [] else putUint 0) ++ p)) ++ r) := by
      simp [definitions, stream, List.append_assoc, lib]
    obtain ⟨tb, ht1, ht2⟩ := described_type reg s hs hr
    unfold decodeAs
    rw [e, getSequence_put (send reg s []).1 _ (reg.of s) _ r (hl.defs_neg s.ty) (hl.defs_len s.ty) (hl.id_pos s.ty)
      (by simpa [List.append_assoc, lib] using h2) (by have := stream_len (send reg s []).1; rw [List.length_append]; omega)]
    simp only [ht1, ht2]
    by_cases hf : fits (wireOf s) t.base = true
    · have hF := (fits_iff s t hs ht).1 hf
      rw [if_neg (by simp [hf])]
      by_cases hm : noneMatched (wireOf s) t.base = true
      · rw [if_pos hm]
        have := (noneMatched_iff s t).1 hm
        simp [this]
      · rw [if_neg hm]
        have hS : ¬ Strangers t s := fun h => hm ((noneMatched_iff s t).2 h)
        have hg := get_as s v p [] hs he hp t ht hf
        rw [List.append_nil] at hg
        have hgoal : ((alloc t fun b => getAs (wireOf s) b p).map (·.1) = some w) ↔ (Fits t s ∧ ¬ Strangers t s ∧ Came t s v w) := by
          constructor
          · intro h
            obtain ⟨⟨w', r'⟩, h4, rfl⟩ := map_some h
            exact ⟨hF, hS, ((hg w' r').1 h4).2⟩
          · rintro ⟨_, _, hc⟩
            rw [(hg w []).2 ⟨rfl, hc⟩]
            rfl
        rw [struct_both t s hF]
        by_cases hst : isStruct s.ty = true
        · rw [if_pos hst, if_pos hst, List.nil_append]
          exact hgoal
        · rw [if_neg hst, if_neg hst, getUint_put 0 (by omega)]
          simp only [ne_eq, not_true_eq_false, if_false]
          exact hgoal
    · rw [if_pos (by simpa using hf)]
      have hF : ¬ Fits t s := fun h => hf ((fits_iff s t hs ht).2 h)
      simp [hF]
  · rw [encodeAs, h3] at h
    simp at h

end Gofer.GobType
