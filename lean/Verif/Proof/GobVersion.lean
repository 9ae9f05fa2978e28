import Verif.Proof.GobWhole

/-! # Versions of types: helper lemmas -/
namespace Gofer.GobType
open Gofer.Gob Gofer.Spec.Gob Gofer.Spec.GobType

/-! ## What is behind pointers -/

theorem behind_nil : ∀ (s : GTy) (v : s.ty.Val), nilPtr s.ty v = false → ∃ x : Any, behind s v = some x ∧ x.1 = s.base
  | .ptr s, (none : Option s.ty.Val), h => by
    have : true = false := h
    simp at this
  | .ptr s, (some x : Option s.ty.Val), h => behind_nil s x h
  | .bool, v, _ => ⟨_, rfl, rfl⟩
  | .int _, v, _ => ⟨_, rfl, rfl⟩
  | .uint _, v, _ => ⟨_, rfl, rfl⟩
  | .float, v, _ => ⟨_, rfl, rfl⟩
  | .str, v, _ => ⟨_, rfl, rfl⟩
  | .bytes, v, _ => ⟨_, rfl, rfl⟩
  | .slice _, v, _ => ⟨_, rfl, rfl⟩
  | .map _ _, v, _ => ⟨_, rfl, rfl⟩
  | .struct _ _, v, _ => ⟨_, rfl, rfl⟩

/-- A property of values that is that of what pointers point to. -/
theorem behind_ind {P : (s : GTy) → s.ty.Val → Prop} (hP : ∀ (s : GTy) (x : s.ty.Val), P (.ptr s) (some x : Option s.ty.Val) → P s x) :
    ∀ (s : GTy) (v : s.ty.Val) (y : Any), behind s v = some y → P s v → P y.1 y.2
  | .ptr s, (none : Option s.ty.Val), y, h, hv => by
    have : (none : Option Any) = some y := h
    simp at this
  | .ptr s, (some x : Option s.ty.Val), y, h, hv => behind_ind hP s x y h (hP s x hv)
  | .bool, v, y, h, hv => by obtain rfl := Option.some.inj h; exact hv
  | .int _, v, y, h, hv => by obtain rfl := Option.some.inj h; exact hv
  | .uint _, v, y, h, hv => by obtain rfl := Option.some.inj h; exact hv
  | .float, v, y, h, hv => by obtain rfl := Option.some.inj h; exact hv
  | .str, v, y, h, hv => by obtain rfl := Option.some.inj h; exact hv
  | .bytes, v, y, h, hv => by obtain rfl := Option.some.inj h; exact hv
  | .slice _, v, y, h, hv => by obtain rfl := Option.some.inj h; exact hv
  | .map _ _, v, y, h, hv => by obtain rfl := Option.some.inj h; exact hv
  | .struct _ _, v, y, h, hv => by obtain rfl := Option.some.inj h; exact hv

theorem whole_behind (s : GTy) (v : s.ty.Val) (y : Any) (h : behind s v = some y) (hv : ¬ NilElement s.ty v) : ¬ NilElement y.1.ty y.2 :=
  behind_ind (P := fun s v => ¬ NilElement s.ty v) (fun _ x hx hn => hx ⟨x, rfl, hn⟩) s v y h hv

theorem sized_behind (s : GTy) (v : s.ty.Val) (y : Any) (h : behind s v = some y) (hv : Sized s v) : Sized y.1 y.2 :=
  behind_ind (P := fun s v => Sized s v) (fun _ x hx => hx x rfl) s v y h hv

theorem nilPtr_nothing : ∀ (t : Ty) (v : t.Val), nilPtr t v = true → nothing t v
  | .ptr t, (none : Option t.Val), _ => Or.inl rfl
  | .ptr t, (some x : Option t.Val), h => Or.inr ⟨x, rfl, nilPtr_nothing t x h⟩
  | .bool, v, h => by have : false = true := h; simp at this
  | .int, v, h => by have : false = true := h; simp at this
  | .uint, v, h => by have : false = true := h; simp at this
  | .float, v, h => by have : false = true := h; simp at this
  | .str, v, h => by have : false = true := h; simp at this
  | .bytes, v, h => by have : false = true := h; simp at this
  | .slice _, v, h => by have : false = true := h; simp at this
  | .map _ _, v, h => by have : false = true := h; simp at this
  | .struct _, v, h => by have : false = true := h; simp at this

theorem holds_nil {f : GFields} {v : f.ty.Vals} {n : Name} {x : Any} (h : Holds f v n x) : nilPtr x.1.ty x.2 = false := by
  cases hp : nilPtr x.1.ty x.2 with
  | false => rfl
  | true => exact absurd (nilPtr_nothing _ _ hp) h.2

theorem field_find : ∀ (f : GFields) (v : f.ty.Vals) (n : Name) (x : Any), field f v n = some x → find f n = some x.1
  | .nil, v, n, x, h => by
    have : (none : Option Any) = some x := h
    simp at this
  | .cons m t f, (a, v), n, x, h => by
    by_cases hm : m = n
    · subst hm
      have h' : some (⟨t, a⟩ : Any) = some x := (if_pos rfl).symm.trans h
      obtain rfl := Option.some.inj h'
      exact if_pos rfl
    · have h' : field f v n = some x := (if_neg hm).symm.trans h
      show (if m = n then _ else _) = _
      rw [if_neg hm]
      exact field_find f v n x h'

theorem field_whole : ∀ (f : GFields) (v : f.ty.Vals) (n : Name) (x : Any), field f v n = some x → ¬ NilElements f.ty v → ¬ NilElement x.1.ty x.2
  | .nil, v, n, x, h, _ => by
    have : (none : Option Any) = some x := h
    simp at this
  | .cons m t f, (a, v), n, x, h, hv => by
    by_cases hm : m = n
    · subst hm
      have h' : some (⟨t, a⟩ : Any) = some x := (if_pos rfl).symm.trans h
      obtain rfl := Option.some.inj h'
      exact fun h => hv (Or.inl h)
    · have h' : field f v n = some x := (if_neg hm).symm.trans h
      exact field_whole f v n x h' fun h => hv (Or.inr h)

theorem field_sized : ∀ (f : GFields) (v : f.ty.Vals) (n : Name) (x : Any), field f v n = some x → Sizeds f v → Sized x.1 x.2
  | .nil, v, n, x, h, _ => by
    have : (none : Option Any) = some x := h
    simp at this
  | .cons m t f, (a, v), n, x, h, hv => by
    by_cases hm : m = n
    · subst hm
      have h' : some (⟨t, a⟩ : Any) = some x := (if_pos rfl).symm.trans h
      obtain rfl := Option.some.inj h'
      exact hv.1
    · have h' : field f v n = some x := (if_neg hm).symm.trans h
      exact field_sized f v n x h' hv.2

/-! ## Errors -/

theorem forall₂_exists {α β : Type} {R : α → β → Prop} : ∀ l : List α, (∃ m, List.Forall₂ R l m) ↔ ∀ a ∈ l, ∃ b, R a b
  | [] => by simp
  | a :: l => by
    rw [List.forall_mem_cons, ← forall₂_exists l]
    constructor
    · rintro ⟨m, h⟩
      cases h with
      | cons h1 h2 => exact ⟨⟨_, h1⟩, _, h2⟩
    · rintro ⟨⟨b, h1⟩, m, h2⟩
      exact ⟨b :: m, .cons h1 h2⟩

theorem slice_inj {s s' : GTy} {x : Option (List s.ty.Val)} {x' : Option (List s'.ty.Val)} {o : Option Any}
    (h : o = some ⟨.slice s, x⟩) (h' : o = some ⟨.slice s', x'⟩) : ∃ e : s = s', e ▸ x = x' := by
  have := Option.some.inj (h.symm.trans h')
  obtain ⟨h1, h2⟩ := Sigma.mk.inj this
  obtain rfl := GTy.slice.inj h1
  exact ⟨rfl, eq_of_heq h2⟩

theorem map_inj {k e k' e' : GTy} {x : Option (List (k.ty.Val × e.ty.Val))} {x' : Option (List (k'.ty.Val × e'.ty.Val))} {o : Option Any}
    (h : o = some ⟨.map k e, x⟩) (h' : o = some ⟨.map k' e', x'⟩) : ∃ (a : k = k') (b : e = e'), a ▸ b ▸ x = x' := by
  have := Option.some.inj (h.symm.trans h')
  obtain ⟨h1, h2⟩ := Sigma.mk.inj this
  obtain ⟨rfl, rfl⟩ := GTy.map.inj h1
  exact ⟨rfl, rfl, eq_of_heq h2⟩

theorem struct_inj {n n' : Name} {f f' : GFields} {x : f.ty.Vals} {x' : f'.ty.Vals} {o : Option Any}
    (h : o = some ⟨.struct n f, x⟩) (h' : o = some ⟨.struct n' f', x'⟩) : ∃ e : f = f', e ▸ x = x' := by
  have := Option.some.inj (h.symm.trans h')
  obtain ⟨h1, h2⟩ := Sigma.mk.inj this
  obtain ⟨rfl, rfl⟩ := GTy.struct.inj h1
  exact ⟨rfl, eq_of_heq h2⟩

theorem number_inj {c : Nat → GTy} (hc : ∀ n m, c n = c m → n = m) (hv : ∀ n, (c n).ty.Val = BitVec 64) {n m : Nat} {x : (c n).ty.Val} {y : (c m).ty.Val} {o : Option Any}
    (h : o = some ⟨c n, x⟩) (h' : o = some ⟨c m, y⟩) : cast (hv n) x = cast (hv m) y := by
  have := Option.some.inj (h.symm.trans h')
  obtain ⟨h1, h2⟩ := Sigma.mk.inj this
  obtain rfl := hc _ _ h1
  obtain rfl := eq_of_heq h2
  rfl

mutual
/-- A value comes out exactly if no number is too large for its variable. -/
theorem came_iff : ∀ (t s : GTy) (v : s.ty.Val), Fits t s → nilPtr s.ty v = false → ¬ NilElement s.ty v →
    ((∃ w, Came t s v w) ↔ ¬ Overflows t s v)
  | .ptr t, s, v, hf, hn, he => by
    have ih := came_iff t s v hf hn he
    refine Iff.trans ?_ ih
    constructor
    · rintro ⟨w, y, _, h⟩
      exact ⟨y, h⟩
    · rintro ⟨y, h⟩
      exact ⟨(some y : Option t.ty.Val), y, rfl, h⟩
  | .bool, s, v, hf, hn, he => by
    obtain ⟨⟨b, x⟩, h, hb⟩ := behind_nil s v hn
    obtain rfl : b = .bool := hb.trans hf
    exact ⟨fun _ h => h, fun _ => ⟨x, h⟩⟩
  | .float, s, v, hf, hn, he => by
    obtain ⟨⟨b, x⟩, h, hb⟩ := behind_nil s v hn
    obtain rfl : b = .float := hb.trans hf
    exact ⟨fun _ h => h, fun _ => ⟨x, h⟩⟩
  | .str, s, v, hf, hn, he => by
    obtain ⟨⟨b, x⟩, h, hb⟩ := behind_nil s v hn
    obtain rfl : b = .str := hb.trans hf
    exact ⟨fun _ h => h, fun _ => ⟨x, h⟩⟩
  | .bytes, s, v, hf, hn, he => by
    obtain ⟨⟨b, x⟩, h, hb⟩ := behind_nil s v hn
    obtain rfl : b = .bytes := hb.trans hf
    refine ⟨fun _ h => h, fun _ => ?_⟩
    by_cases hx : (show Option (List UInt8) from x).getD [] = []
    · exact ⟨(none : Option (List UInt8)), x, h, Or.inl ⟨hx, rfl⟩⟩
    · exact ⟨x, x, h, Or.inr ⟨hx, rfl⟩⟩
  | .int n, s, v, hf, hn, he => by
    obtain ⟨m, hm⟩ := hf
    obtain ⟨⟨b, x⟩, h, hb⟩ := behind_nil s v hn
    obtain rfl : b = .int m := hb.trans hm
    constructor
    · rintro ⟨w, ⟨m', h1⟩, h2⟩ ⟨m'', y, h3, h4⟩
      have e : (show BitVec 64 from w) = y := number_inj (c := .int) (n := m') (m := m'') (x := w) (y := y) (fun _ _ h => GTy.int.inj h) (fun _ => rfl) h1 h3
      subst e
      exact h4 h2
    · intro h1
      by_cases hx : -2 ^ (n - 1) ≤ (show BitVec 64 from x).toInt ∧ (show BitVec 64 from x).toInt < 2 ^ (n - 1)
      · exact ⟨x, ⟨m, h⟩, hx⟩
      · exact absurd ⟨m, x, h, hx⟩ h1
  | .uint n, s, v, hf, hn, he => by
    obtain ⟨m, hm⟩ := hf
    obtain ⟨⟨b, x⟩, h, hb⟩ := behind_nil s v hn
    obtain rfl : b = .uint m := hb.trans hm
    constructor
    · rintro ⟨w, ⟨m', h1⟩, h2⟩ ⟨m'', y, h3, h4⟩
      have e : (show BitVec 64 from w) = y := number_inj (c := .uint) (n := m') (m := m'') (x := w) (y := y) (fun _ _ h => GTy.uint.inj h) (fun _ => rfl) h1 h3
      subst e
      exact h4 h2
    · intro h1
      by_cases hx : (show BitVec 64 from x).toNat < 2 ^ n
      · exact ⟨x, ⟨m, h⟩, hx⟩
      · exact absurd ⟨m, x, h, hx⟩ h1
  | .slice t, s, v, hf, hn, he => by
    obtain ⟨s', hs, hF⟩ := hf
    obtain ⟨⟨b, x⟩, h, hb⟩ := behind_nil s v hn
    obtain rfl : b = .slice s' := hb.trans hs
    have hw : ¬ NilElement (.slice s'.ty) x := whole_behind s v _ h he
    change Option (List s'.ty.Val) at x
    have hel : ∀ a ∈ x.getD [], (∃ b, Came t s' a b) ↔ ¬ Overflows t s' a := by
      intro a ha
      have hx : ∃ l, x = some l ∧ a ∈ l := by
        cases x with
        | none => simp at ha
        | some l => exact ⟨l, rfl, ha⟩
      obtain ⟨l, hl, hal⟩ := hx
      refine came_iff t s' a hF ?_ ?_
      · cases hp : nilPtr s'.ty a with
        | false => rfl
        | true => exact absurd ⟨l, hl, a, hal, Or.inl hp⟩ hw
      · exact fun hN => hw ⟨l, hl, a, hal, Or.inr hN⟩
    constructor
    · rintro ⟨w, s1, x1, h1, h2⟩ ⟨s2, x2, h3, a, ha, ho⟩
      obtain ⟨rfl, rfl⟩ := slice_inj h h1
      obtain ⟨rfl, rfl⟩ := slice_inj h h3
      rcases h2 with ⟨h4, _⟩ | ⟨_, l, _, h4⟩
      · rw [h4] at ha
        simp at ha
      · exact (hel a ha).1 ((forall₂_exists _).1 ⟨l, h4⟩ a ha) ho
    · intro ho
      by_cases hx : x.getD [] = []
      · exact ⟨(none : Option (List t.ty.Val)), s', x, h, Or.inl ⟨hx, rfl⟩⟩
      · obtain ⟨l, hl⟩ := (forall₂_exists (R := fun a b => Came t s' a b) (x.getD [])).2 fun a ha =>
          (hel a ha).2 fun hov => ho ⟨s', x, h, a, ha, hov⟩
        exact ⟨(some l : Option (List t.ty.Val)), s', x, h, Or.inr ⟨hx, l, rfl, hl⟩⟩
  | .map k e, s, v, hf, hn, he => by
    obtain ⟨k', e', hs, hF, hF'⟩ := hf
    obtain ⟨⟨b, x⟩, h, hb⟩ := behind_nil s v hn
    obtain rfl : b = .map k' e' := hb.trans hs
    have hw : ¬ NilElement (.map k'.ty e'.ty) x := whole_behind s v _ h he
    change Option (List (k'.ty.Val × e'.ty.Val)) at x
    have hel : ∀ a ∈ x.getD [], ((∃ b, Came k k' a.1 b) ↔ ¬ Overflows k k' a.1) ∧ ((∃ b, Came e e' a.2 b) ↔ ¬ Overflows e e' a.2) := by
      intro a ha
      have hx : ∃ l, x = some l ∧ a ∈ l := by
        cases x with
        | none => simp at ha
        | some l => exact ⟨l, rfl, ha⟩
      obtain ⟨l, hl, hal⟩ := hx
      refine ⟨came_iff k k' a.1 hF ?_ ?_, came_iff e e' a.2 hF' ?_ ?_⟩
      · cases hp : nilPtr k'.ty a.1 with
        | false => rfl
        | true => exact absurd ⟨l, hl, a, hal, Or.inl (Or.inl hp)⟩ hw
      · exact fun hN => hw ⟨l, hl, a, hal, Or.inl (Or.inr hN)⟩
      · cases hp : nilPtr e'.ty a.2 with
        | false => rfl
        | true => exact absurd ⟨l, hl, a, hal, Or.inr (Or.inl hp)⟩ hw
      · exact fun hN => hw ⟨l, hl, a, hal, Or.inr (Or.inr hN)⟩
    constructor
    · rintro ⟨w, k1, e1, x1, h1, l, _, h2⟩ ⟨k2, e2, x2, h3, a, ha, ho⟩
      obtain ⟨rfl, rfl, rfl⟩ := map_inj h h1
      obtain ⟨rfl, rfl, rfl⟩ := map_inj h h3
      obtain ⟨b, hb1, hb2⟩ := (forall₂_exists _).1 ⟨l, h2⟩ a ha
      rcases ho with ho | ho
      · exact (hel a ha).1.1 ⟨_, hb1⟩ ho
      · exact (hel a ha).2.1 ⟨_, hb2⟩ ho
    · intro ho
      obtain ⟨l, hl⟩ := (forall₂_exists (R := fun (a : k'.ty.Val × e'.ty.Val) (b : k.ty.Val × e.ty.Val) => Came k k' a.1 b.1 ∧ Came e e' a.2 b.2) (x.getD [])).2 (by
        intro a ha
        obtain ⟨b1, hb1⟩ := (hel a ha).1.2 fun hov => ho ⟨k', e', x, h, a, ha, Or.inl hov⟩
        obtain ⟨b2, hb2⟩ := (hel a ha).2.2 fun hov => ho ⟨k', e', x, h, a, ha, Or.inr hov⟩
        exact ⟨(b1, b2), hb1, hb2⟩)
      exact ⟨(some l : Option (List (k.ty.Val × e.ty.Val))), k', e', x, h, l, rfl, hl⟩
  | .struct n f, s, v, hf, hn, he => by
    obtain ⟨n', f', hs, hF⟩ := hf
    obtain ⟨⟨b, x⟩, h, hb⟩ := behind_nil s v hn
    obtain rfl : b = .struct n' f' := hb.trans hs
    have hw : ¬ NilElements f'.ty x := whole_behind s v _ h he
    have ih := cames_iff f f' x hF hw
    constructor
    · rintro ⟨w, n1, f1, x1, h1, h2⟩ ⟨n2, f2, x2, h3, h4⟩
      obtain ⟨rfl, rfl⟩ := struct_inj h h1
      obtain ⟨rfl, rfl⟩ := struct_inj h h3
      exact ih.1 ⟨w, h2⟩ h4
    · intro ho
      obtain ⟨w, hw⟩ := ih.2 fun hov => ho ⟨n', f', x, h, hov⟩
      exact ⟨w, n', f', x, h, hw⟩
theorem cames_iff : ∀ (f f' : GFields) (v : f'.ty.Vals), Fitss f f' → ¬ NilElements f'.ty v → ((∃ w, Cames f f' v w) ↔ ¬ Overflowss f f' v)
  | .nil, f', v, _, _ => ⟨fun _ h => h, fun _ => ⟨(), trivial⟩⟩
  | .cons n t f, f', v, hf, he => by
    have ih := cames_iff f f' v hf.2 he
    have hel : ∀ x : Any, Holds f' v n x → ((∃ w, Came t x.1 x.2 w) ↔ ¬ Overflows t x.1 x.2) := fun x hx =>
      came_iff t x.1 x.2 (hf.1 x.1 (field_find f' v n x hx.1)) (holds_nil hx) (field_whole f' v n x hx.1 he)
    constructor
    · rintro ⟨⟨a, w⟩, h1, h2⟩ (⟨x, hx, ho⟩ | ho)
      · rcases h1 with ⟨y, hy, hc⟩ | ⟨h3, _⟩
        · obtain rfl : y = x := Option.some.inj (hy.1.symm.trans hx.1)
          exact (hel y hy).1 ⟨a, hc⟩ ho
        · exact h3 ⟨x, hx⟩
      · exact ih.1 ⟨w, h2⟩ ho
    · intro ho
      obtain ⟨w, hw⟩ := ih.2 fun h => ho (Or.inr h)
      by_cases hx : ∃ x : Any, Holds f' v n x
      · obtain ⟨x, hx⟩ := hx
        obtain ⟨a, ha⟩ := (hel x hx).2 fun h => ho (Or.inl ⟨x, hx, h⟩)
        exact ⟨(a, w), Or.inl ⟨x, hx, ha⟩, hw⟩
      · exact ⟨(zero t.ty, w), Or.inr ⟨hx, rfl⟩, hw⟩
end

/-! ## Newer versions -/

mutual
theorem wider_fits : ∀ (t s : GTy), Wider t s → Fits t s
  | .bool, _, h => h
  | .float, _, h => h
  | .str, _, h => h
  | .bytes, _, h => h
  | .int _, _, ⟨m, h, _⟩ => ⟨m, h⟩
  | .uint _, _, ⟨m, h, _⟩ => ⟨m, h⟩
  | .slice t, _, ⟨s', h, h'⟩ => ⟨s', h, wider_fits t s' h'⟩
  | .map k e, _, ⟨k', e', h, h1, h2⟩ => ⟨k', e', h, wider_fits k k' h1, wider_fits e e' h2⟩
  | .ptr t, s, h => wider_fits t s h
  | .struct _ f, _, ⟨n, f', h, h'⟩ => ⟨n, f', h, widers_fits f f' h'⟩
theorem widers_fits : ∀ (f f' : GFields), Widers f f' → Fitss f f'
  | .nil, _, _ => trivial
  | .cons n t f, f', h => ⟨fun s hs => wider_fits t s (h.1 s hs), widers_fits f f' h.2⟩
end

theorem behind_base : ∀ (s : GTy) (v : s.ty.Val) (y : Any), behind s v = some y → y.1 = s.base
  | .ptr s, (none : Option s.ty.Val), y, h => by
    have : (none : Option Any) = some y := h
    simp at this
  | .ptr s, (some x : Option s.ty.Val), y, h => behind_base s x y h
  | .bool, v, y, h => by obtain rfl := Option.some.inj h; rfl
  | .int _, v, y, h => by obtain rfl := Option.some.inj h; rfl
  | .uint _, v, y, h => by obtain rfl := Option.some.inj h; rfl
  | .float, v, y, h => by obtain rfl := Option.some.inj h; rfl
  | .str, v, y, h => by obtain rfl := Option.some.inj h; rfl
  | .bytes, v, y, h => by obtain rfl := Option.some.inj h; rfl
  | .slice _, v, y, h => by obtain rfl := Option.some.inj h; rfl
  | .map _ _, v, y, h => by obtain rfl := Option.some.inj h; rfl
  | .struct _ _, v, y, h => by obtain rfl := Option.some.inj h; rfl

mutual
theorem wider_fine : ∀ (t s : GTy) (v : s.ty.Val), Wider t s → Sized s v → ¬ Overflows t s v
  | .bool, _, _, _, _ => id
  | .float, _, _, _, _ => id
  | .str, _, _, _, _ => id
  | .bytes, _, _, _, _ => id
  | .ptr t, s, v, h, hs => wider_fine t s v h hs
  | .int n, s, v, ⟨m, h, hm⟩, hs => by
    rintro ⟨m', x, hx, ho⟩
    have hb := behind_base s v _ hx
    rw [h] at hb
    obtain rfl : m' = m := GTy.int.inj hb
    obtain ⟨h1, h2⟩ : -2 ^ (m' - 1) ≤ x.toInt ∧ x.toInt < 2 ^ (m' - 1) := sized_behind s v _ hx hs
    have h3 : (2 : Int) ^ (m' - 1) ≤ 2 ^ (n - 1) := pow_le_pow_right₀ (by norm_num) (by omega)
    exact ho ⟨by omega, by omega⟩
  | .uint n, s, v, ⟨m, h, hm⟩, hs => by
    rintro ⟨m', x, hx, ho⟩
    have hb := behind_base s v _ hx
    rw [h] at hb
    obtain rfl : m' = m := GTy.uint.inj hb
    have h1 : x.toNat < 2 ^ m' := sized_behind s v _ hx hs
    exact ho (Nat.lt_of_lt_of_le h1 (Nat.pow_le_pow_right (by norm_num) hm))
  | .slice t, s, v, ⟨s', h, hw⟩, hs => by
    rintro ⟨s1, x, hx, a, ha, ho⟩
    have hb := behind_base s v _ hx
    rw [h] at hb
    obtain rfl : s1 = s' := GTy.slice.inj hb
    have hz : ∀ l, x = some l → ∀ a ∈ l, Sized s1 a := sized_behind s v _ hx hs
    cases x with
    | none => simp at ha
    | some l => exact wider_fine t s1 a hw (hz l rfl a ha) ho
  | .map k e, s, v, ⟨k', e', h, hw, hw'⟩, hs => by
    rintro ⟨k1, e1, x, hx, a, ha, ho⟩
    have hb := behind_base s v _ hx
    rw [h] at hb
    obtain ⟨rfl, rfl⟩ : k1 = k' ∧ e1 = e' := GTy.map.inj hb
    have hz : ∀ l, x = some l → ∀ a ∈ l, Sized k1 a.1 ∧ Sized e1 a.2 := sized_behind s v _ hx hs
    cases x with
    | none => simp at ha
    | some l =>
      rcases ho with ho | ho
      · exact wider_fine k k1 a.1 hw (hz l rfl a ha).1 ho
      · exact wider_fine e e1 a.2 hw' (hz l rfl a ha).2 ho
  | .struct _ f, s, v, ⟨n', f', h, hw⟩, hs => by
    rintro ⟨n1, f1, x, hx, ho⟩
    have hb := behind_base s v _ hx
    rw [h] at hb
    obtain ⟨rfl, rfl⟩ : n1 = n' ∧ f1 = f' := GTy.struct.inj hb
    have hz : Sizeds f1 x := sized_behind s v _ hx hs
    exact widers_fine f f1 x hw hz ho
theorem widers_fine : ∀ (f f' : GFields) (v : f'.ty.Vals), Widers f f' → Sizeds f' v → ¬ Overflowss f f' v
  | .nil, _, _, _, _ => id
  | .cons n t f, f', v, h, hs => by
    rintro (⟨x, hx, ho⟩ | ho)
    · exact wider_fine t x.1 x.2 (h.1 x.1 (field_find f' v n x hx.1)) (field_sized f' v n x hx.1 hs) ho
    · exact widers_fine f f' v h.2 hs ho
end

mutual
theorem wider_refl : ∀ t : GTy, Proper t → Wider t t
  | .bool, _ => rfl
  | .float, _ => rfl
  | .str, _ => rfl
  | .bytes, _ => rfl
  | .int n, _ => ⟨n, rfl, Nat.le_refl _⟩
  | .uint n, _ => ⟨n, rfl, Nat.le_refl _⟩
  | .slice t, h => ⟨t, rfl, wider_refl t h⟩
  | .map k e, h => ⟨k, e, rfl, wider_refl k h.1, wider_refl e h.2⟩
  | .ptr t, h => wider_base t t (wider_refl t h)
  | .struct n f, h => ⟨n, f, rfl, widers_refl f f h.2 fun _ _ => rfl⟩
theorem widers_refl : ∀ (g f : GFields), Propers g → (∀ n ∈ names g, find f n = find g n) → Widers g f
  | .nil, _, _, _ => trivial
  | .cons n t g, f, h, hf => by
    refine ⟨fun s hs => ?_, widers_refl g f h.2.2.2 fun m hm => ?_⟩
    · rw [hf n List.mem_cons_self] at hs
      obtain rfl : t = s := Option.some.inj ((if_pos rfl).symm.trans hs)
      exact wider_refl t h.2.2.1
    · rw [hf m (List.mem_cons_of_mem _ hm)]
      exact if_neg fun e : n = m => h.1 (e ▸ hm)
theorem wider_base : ∀ (t s : GTy), Wider t s → Wider t (.ptr s)
  | .bool, _, h => h
  | .float, _, h => h
  | .str, _, h => h
  | .bytes, _, h => h
  | .int _, _, h => h
  | .uint _, _, h => h
  | .slice _, _, h => h
  | .map _ _, _, h => h
  | .ptr t, s, h => wider_base t s h
  | .struct _ _, _, h => h
end

theorem strangers_self (t : GTy) : ¬ Strangers t t := by
  rintro ⟨n, f, n', f', h, h', h1, h2, h3⟩
  rw [h] at h'
  obtain ⟨rfl, rfl⟩ := GTy.struct.inj h'
  cases hf : names f with
  | nil => exact h1 hf
  | cons m l =>
    have : m ∈ names f := by
      rw [hf]
      exact List.mem_cons_self
    exact h3 m this this

mutual
/-- Of a value of the same type comes what `back` says. -/
theorem came_back : ∀ (t : GTy) (v : t.ty.Val), Proper t → Sized t v → nilPtr t.ty v = false → ¬ NilElement t.ty v → Came t t v (back t.ty v)
  | .bool, v, _, _, _, _ => rfl
  | .float, v, _, _, _, _ => rfl
  | .str, v, _, _, _, _ => rfl
  | .int n, v, _, hs, _, _ => ⟨⟨n, rfl⟩, hs⟩
  | .uint n, v, _, hs, _, _ => ⟨⟨n, rfl⟩, hs⟩
  | .bytes, (none : Option (List UInt8)), _, _, _, _ => ⟨none, rfl, Or.inl ⟨rfl, rfl⟩⟩
  | .bytes, (some [] : Option (List UInt8)), _, _, _, _ => ⟨some [], rfl, Or.inl ⟨rfl, rfl⟩⟩
  | .bytes, (some (a :: r) : Option (List UInt8)), _, _, _, _ => ⟨some (a :: r), rfl, Or.inr ⟨by simp, rfl⟩⟩
  | .slice t, (none : Option (List t.ty.Val)), _, _, _, _ => ⟨t, none, rfl, Or.inl ⟨rfl, rfl⟩⟩
  | .slice t, (some [] : Option (List t.ty.Val)), _, _, _, _ => ⟨t, some [], rfl, Or.inl ⟨rfl, rfl⟩⟩
  | .slice t, (some (a :: r) : Option (List t.ty.Val)), hp, hs, hn, he => by
    refine ⟨t, some (a :: r), rfl, Or.inr ⟨by simp, (a :: r).map (back t.ty), rfl, ?_⟩⟩
    show List.Forall₂ _ (a :: r) _
    rw [List.forall₂_map_right_iff, List.forall₂_same]
    intro x hx
    refine came_back t x hp (hs _ rfl x hx) ?_ fun hN => he ⟨_, rfl, x, hx, Or.inr hN⟩
    cases hx' : nilPtr t.ty x with
    | false => rfl
    | true => exact absurd ⟨_, rfl, x, hx, Or.inl hx'⟩ he
  | .map k e, (none : Option (List (k.ty.Val × e.ty.Val))), _, _, _, _ => ⟨k, e, none, rfl, [], rfl, .nil⟩
  | .map k e, (some l : Option (List (k.ty.Val × e.ty.Val))), hp, hs, hn, he => by
    refine ⟨k, e, some l, rfl, l.map fun e' => (back k.ty e'.1, back e.ty e'.2), rfl, ?_⟩
    show List.Forall₂ _ l _
    rw [List.forall₂_map_right_iff, List.forall₂_same]
    intro x hx
    refine ⟨came_back k x.1 hp.1 (hs _ rfl x hx).1 ?_ fun hN => he ⟨_, rfl, x, hx, Or.inl (Or.inr hN)⟩,
      came_back e x.2 hp.2 (hs _ rfl x hx).2 ?_ fun hN => he ⟨_, rfl, x, hx, Or.inr (Or.inr hN)⟩⟩
    · cases hx' : nilPtr k.ty x.1 with
      | false => rfl
      | true => exact absurd ⟨_, rfl, x, hx, Or.inl (Or.inl hx')⟩ he
    · cases hx' : nilPtr e.ty x.2 with
      | false => rfl
      | true => exact absurd ⟨_, rfl, x, hx, Or.inr (Or.inl hx')⟩ he
  | .ptr t, (none : Option t.ty.Val), _, _, h, _ => by
    have : true = false := h
    simp at this
  | .ptr t, (some x : Option t.ty.Val), hp, hs, hn, he =>
    ⟨back t.ty x, rfl, (came_behind t (.ptr t) t (some x : Option t.ty.Val) x _ rfl).2 (came_back t x hp (hs x rfl) hn fun hN => he ⟨x, rfl, hN⟩)⟩
  | .struct n f, v, hp, hs, _, he => ⟨n, f, v, rfl, cames_back f f v v hp.2 hs he fun _ _ => rfl⟩
theorem cames_back : ∀ (g f : GFields) (v : f.ty.Vals) (u : g.ty.Vals), Propers g → Sizeds g u → ¬ NilElements g.ty u →
    (∀ n ∈ names g, field f v n = field g u n) → Cames g f v (backs g.ty u)
  | .nil, _, _, _, _, _, _, _ => trivial
  | .cons n t g, f, v, (a, u), hp, hs, he, hf => by
    have hfn : field f v n = some ⟨t, a⟩ := (hf n List.mem_cons_self).trans (if_pos rfl)
    refine ⟨?_, cames_back g f v u hp.2.2.2 hs.2 (fun h => he (Or.inr h)) fun m hm => ?_⟩
    · by_cases h0 : nothing t.ty a
      · refine Or.inr ⟨?_, if_pos h0⟩
        rintro ⟨x, h1, h2⟩
        obtain rfl : (⟨t, a⟩ : Any) = x := Option.some.inj (hfn.symm.trans h1)
        exact h2 h0
      · refine Or.inl ⟨⟨t, a⟩, ⟨hfn, h0⟩, ?_⟩
        have e : (show t.ty.Val × g.ty.Vals from backs (GFields.cons n t g).ty (a, u)).1 = back t.ty a := if_neg h0
        rw [e]
        exact came_back t a hp.2.2.1 hs.1 (holds_nil (f := f) (v := v) (n := n) ⟨hfn, h0⟩) fun h => he (Or.inl h)
    · rw [hf m (List.mem_cons_of_mem _ hm)]
      exact if_neg fun e : n = m => hp.1 (e ▸ hm)
end

end Gofer.GobType
