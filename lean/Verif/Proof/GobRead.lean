import Verif.Proof.GobType

/-! # Reading a value of one type as another -/
namespace Gofer.GobType
open Gofer.Gob Gofer.Spec.Gob Gofer.Spec.GobType

/-! ## Pointers -/

/-- Not a pointer. -/
def Base (b : GTy) : Prop := ∀ u, b ≠ .ptr u

theorem alloc_iff {R : (t : GTy) → t.ty.Val → Prop} (hR : ∀ t (w : (GTy.ptr t).ty.Val), R (.ptr t) w ↔ ∃ y : t.ty.Val, w = (some y : Option t.ty.Val) ∧ R t y)
    {k : (b : GTy) → Option (b.ty.Val × List UInt8)} {r : List UInt8} : ∀ (t : GTy),
    (∀ w r', k t.base = some (w, r') ↔ r' = r ∧ R t.base w) → ∀ w r', alloc t k = some (w, r') ↔ r' = r ∧ R t w
  | .ptr t, hk, w, r' => by
    have ih := alloc_iff hR t hk
    show (alloc t k).map _ = _ ↔ _
    rw [hR t w]
    constructor
    · intro h
      obtain ⟨p, h1, h2⟩ := map_some h
      obtain ⟨y, s⟩ := p
      obtain ⟨rfl, rfl⟩ := Prod.mk.inj h2
      obtain ⟨rfl, h3⟩ := (ih y s).1 h1
      exact ⟨rfl, y, rfl, h3⟩
    · rintro ⟨rfl, y, rfl, h⟩
      rw [(ih y r').2 ⟨rfl, h⟩]
      rfl
  | .bool, hk, w, r' => hk w r'
  | .int _, hk, w, r' => hk w r'
  | .uint _, hk, w, r' => hk w r'
  | .float, hk, w, r' => hk w r'
  | .str, hk, w, r' => hk w r'
  | .bytes, hk, w, r' => hk w r'
  | .slice _, hk, w, r' => hk w r'
  | .map _ _, hk, w, r' => hk w r'
  | .struct _ _, hk, w, r' => hk w r'

theorem came_behind : ∀ (t s s' : GTy) (v : s.ty.Val) (v' : s'.ty.Val) (w : t.ty.Val), behind s v = behind s' v' → (Came t s v w ↔ Came t s' v' w)
  | .ptr t, s, s', v, v', w, h => by
    constructor
    · rintro ⟨y, h1, h2⟩
      exact ⟨y, h1, (came_behind t s s' v v' y h).1 h2⟩
    · rintro ⟨y, h1, h2⟩
      exact ⟨y, h1, (came_behind t s s' v v' y h).2 h2⟩
  | .bool, s, s', v, v', w, h => by show behind s v = _ ↔ behind s' v' = _; rw [h]
  | .int n, s, s', v, v', w, h => by show (∃ m, behind s v = _) ∧ _ ↔ (∃ m, behind s' v' = _) ∧ _; rw [h]
  | .uint n, s, s', v, v', w, h => by show (∃ m, behind s v = _) ∧ _ ↔ (∃ m, behind s' v' = _) ∧ _; rw [h]
  | .float, s, s', v, v', w, h => by show behind s v = _ ↔ behind s' v' = _; rw [h]
  | .str, s, s', v, v', w, h => by show behind s v = _ ↔ behind s' v' = _; rw [h]
  | .bytes, s, s', v, v', w, h => by show (∃ x, behind s v = _ ∧ _) ↔ (∃ x, behind s' v' = _ ∧ _); rw [h]
  | .slice t, s, s', v, v', w, h => by
    show (∃ s₁ x, behind s v = _ ∧ _) ↔ (∃ s₁ x, behind s' v' = _ ∧ _); rw [h]
  | .map k e, s, s', v, v', w, h => by
    show (∃ k₁ e₁ x, behind s v = _ ∧ _) ↔ (∃ k₁ e₁ x, behind s' v' = _ ∧ _); rw [h]
  | .struct n f, s, s', v, v', w, h => by
    show (∃ n₁ f₁ x, behind s v = _ ∧ _) ↔ (∃ n₁ f₁ x, behind s' v' = _ ∧ _); rw [h]

/-! ## Elements -/

theorem getAll_rel {α β : Type} {p : α → Option (List UInt8)} {g : List UInt8 → Option (β × List UInt8)} {R : α → β → Prop} :
    ∀ (l : List α), (∀ a ∈ l, ∀ bs r, p a = some bs → ∀ w r', g (bs ++ r) = some (w, r') ↔ r' = r ∧ R a w) →
      ∀ bs r, putAll p l = some bs → ∀ l' r', getAll g l.length (bs ++ r) = some (l', r') ↔ r' = r ∧ List.Forall₂ R l l'
  | [], _, bs, r, h, l', r' => by
    obtain rfl : [] = bs := Option.some.inj h
    show some ([], r) = _ ↔ _
    rw [Option.some.injEq, Prod.mk.injEq]
    constructor
    · rintro ⟨rfl, rfl⟩
      exact ⟨rfl, .nil⟩
    · rintro ⟨rfl, h⟩
      cases h
      exact ⟨rfl, rfl⟩
  | a :: l, hp, bs, r, h, l', r' => by
    unfold putAll at h
    cases h1 : p a with
    | none => rw [h1] at h; simp at h
    | some x =>
      cases h2 : putAll p l with
      | none => rw [h1, h2] at h; simp at h
      | some y =>
        rw [h1, h2] at h
        obtain rfl : x ++ y = bs := Option.some.inj h
        have ha := hp a (by simp) x (y ++ r) h1
        have ih := getAll_rel l (fun b hb => hp b (by simp [hb])) y r h2
        rw [List.length_cons, getAll, List.append_assoc]
        constructor
        · intro hg
          cases e : g (x ++ (y ++ r)) with
          | none => rw [e] at hg; simp at hg
          | some q =>
            obtain ⟨w, r1⟩ := q
            obtain ⟨rfl, hr⟩ := (ha w r1).1 e
            rw [e] at hg
            simp only at hg
            cases e2 : getAll g l.length (y ++ r) with
            | none => rw [e2] at hg; simp at hg
            | some q =>
              obtain ⟨l1, r2⟩ := q
              obtain ⟨rfl, hl⟩ := (ih l1 r2).1 e2
              rw [e2] at hg
              obtain ⟨rfl, rfl⟩ := Prod.mk.inj (Option.some.inj hg)
              exact ⟨rfl, .cons hr hl⟩
        · rintro ⟨rfl, h⟩
          cases h with
          | cons hr hl =>
            rw [(ha _ _).2 ⟨rfl, hr⟩]
            simp only
            rw [(ih _ _).2 ⟨rfl, hl⟩]

theorem forall₂_nil_left {α β : Type} {R : α → β → Prop} {l : List β} (h : List.Forall₂ R [] l) : l = [] := by
  cases h; rfl

theorem forall₂_nil_right {α β : Type} {R : α → β → Prop} {l : List α} (h : List.Forall₂ R l []) : l = [] := by
  cases h; rfl

/-! ## Fields -/

/-- What the fields become if they hold `ws` before. -/
def Upd : (f : GFields) → (f' : GFields) → f'.ty.Vals → f.ty.Vals → f.ty.Vals → Prop
  | .nil, _, _, _, _ => True
  | .cons n t f, f', v, ws, w => ((∃ x : Any, Holds f' v n x ∧ Came t x.1 x.2 (show t.ty.Val × f.ty.Vals from w).1) ∨
      (¬ ∃ x : Any, Holds f' v n x) ∧ (show t.ty.Val × f.ty.Vals from w).1 = (show t.ty.Val × f.ty.Vals from ws).1) ∧
      Upd f f' v (show t.ty.Val × f.ty.Vals from ws).2 (show t.ty.Val × f.ty.Vals from w).2

theorem upd_zeros : ∀ (f f' : GFields) (v : f'.ty.Vals) (w : f.ty.Vals), Upd f f' v (zeros f.ty) w ↔ Cames f f' v w
  | .nil, _, _, _ => Iff.rfl
  | .cons n t f, f', v, ((a, w) : t.ty.Val × f.ty.Vals) => by
    show (_ ∧ Upd f f' v (zeros f.ty) w) ↔ (_ ∧ Cames f f' v w)
    rw [upd_zeros f f' v w]
    exact Iff.rfl

theorem field_none : ∀ (f : GFields) (v : f.ty.Vals) (n : Name), n ∉ names f → field f v n = none
  | .nil, _, _, _ => rfl
  | .cons m t f, ((a, v) : t.ty.Val × f.ty.Vals), n, h => by
    simp only [names, List.mem_cons, not_or] at h
    show (if m = n then _ else field f v n) = none
    rw [if_neg (Ne.symm h.1), field_none f v n h.2]

theorem holds_none {f : GFields} {v : f.ty.Vals} {n : Name} (h : n ∉ names f) (x : Any) : ¬ Holds f v n x := by
  rintro ⟨h1, _⟩
  rw [field_none f v n h] at h1
  simp at h1

theorem holds_ne {m n : Name} (t : GTy) (f : GFields) (a : t.ty.Val) (v : f.ty.Vals) (h : m ≠ n) (x : Any) :
    Holds (.cons m t f) ((a, v) : t.ty.Val × f.ty.Vals) n x ↔ Holds f v n x := by
  show ((if m = n then _ else field f v n) = some x ∧ _) ↔ _
  rw [if_neg h]
  exact Iff.rfl

theorem holds_self {n : Name} (t : GTy) (f : GFields) (a : t.ty.Val) (v : f.ty.Vals) (x : Any) :
    Holds (.cons n t f) ((a, v) : t.ty.Val × f.ty.Vals) n x ↔ ⟨t, a⟩ = x ∧ ¬ nothing t.ty a := by
  show ((if n = n then some ⟨t, a⟩ else _) = some x ∧ _) ↔ _
  rw [if_pos rfl, Option.some.injEq]
  constructor
  · rintro ⟨rfl, h⟩
    exact ⟨rfl, h⟩
  · rintro ⟨rfl, h⟩
    exact ⟨rfl, h⟩

/-- Without fields nothing changes. -/
theorem upd_empty : ∀ (f : GFields) (v : GFields.nil.ty.Vals) (ws w : f.ty.Vals), Upd f .nil v ws w ↔ ws = w
  | .nil, _, _, _ => ⟨fun _ => rfl, fun _ => trivial⟩
  | .cons m t f, v, ((b, ws) : t.ty.Val × f.ty.Vals), ((c, w) : t.ty.Val × f.ty.Vals) => by
    show ((∃ x : Any, Holds .nil v m x ∧ Came t x.1 x.2 c) ∨ (¬ ∃ x : Any, Holds .nil v m x) ∧ c = b) ∧ Upd f .nil v ws w ↔ (b, ws) = (c, w)
    have e : ∀ x, ¬ Holds .nil v m x := fun x => holds_none (by simp [names]) x
    rw [upd_empty f v ws w, Prod.mk.injEq]
    constructor
    · rintro ⟨⟨x, hx, _⟩ | ⟨_, h⟩, h'⟩
      · exact absurd hx (e x)
      · exact ⟨h.symm, h'⟩
    · rintro ⟨h, h'⟩
      exact ⟨Or.inr ⟨fun ⟨x, hx⟩ => e x hx, h.symm⟩, h'⟩

/-- A field that holds nothing changes nothing. -/
theorem upd_nothing : ∀ (f : GFields) (n : Name) (s : GTy) (sf : GFields) (a : s.ty.Val) (v : sf.ty.Vals) (ws w : f.ty.Vals), nothing s.ty a →
    n ∉ names sf → (Upd f (.cons n s sf) ((a, v) : s.ty.Val × sf.ty.Vals) ws w ↔ Upd f sf v ws w)
  | .nil, _, _, _, _, _, _, _, _, _ => Iff.rfl
  | .cons m t f, n, s, sf, a, v, ((b, ws) : t.ty.Val × f.ty.Vals), ((c, w) : t.ty.Val × f.ty.Vals), h, hn => by
    have ih := upd_nothing f n s sf a v ws w h hn
    have e : ∀ x, Holds (.cons n s sf) ((a, v) : s.ty.Val × sf.ty.Vals) m x ↔ Holds sf v m x := by
      intro x
      by_cases hm : n = m
      · subst hm
        rw [holds_self]
        constructor
        · exact fun h' => absurd h h'.2
        · exact fun h' => absurd h' (holds_none hn x)
      · exact holds_ne s sf a v hm x
    show (((∃ x : Any, Holds (.cons n s sf) ((a, v) : s.ty.Val × sf.ty.Vals) m x ∧ Came t x.1 x.2 c) ∨
      (¬ ∃ x : Any, Holds (.cons n s sf) ((a, v) : s.ty.Val × sf.ty.Vals) m x) ∧ c = b) ∧ _) ↔
      ((∃ x : Any, Holds sf v m x ∧ Came t x.1 x.2 c) ∨ (¬ ∃ x : Any, Holds sf v m x) ∧ c = b) ∧ Upd f sf v ws w
    simp only [e, ih]

/-- A field that is not known changes nothing. -/
theorem upd_unknown : ∀ (f : GFields) (n : Name) (s : GTy) (sf : GFields) (a : s.ty.Val) (v : sf.ty.Vals) (ws w : f.ty.Vals), n ∉ names f →
    (Upd f (.cons n s sf) ((a, v) : s.ty.Val × sf.ty.Vals) ws w ↔ Upd f sf v ws w)
  | .nil, _, _, _, _, _, _, _, _ => Iff.rfl
  | .cons m t f, n, s, sf, a, v, ((b, ws) : t.ty.Val × f.ty.Vals), ((c, w) : t.ty.Val × f.ty.Vals), hn => by
    simp only [names, List.mem_cons, not_or] at hn
    have ih := upd_unknown f n s sf a v ws w hn.2
    have e := holds_ne s sf a v hn.1
    show (((∃ x : Any, Holds (.cons n s sf) ((a, v) : s.ty.Val × sf.ty.Vals) m x ∧ Came t x.1 x.2 c) ∨
      (¬ ∃ x : Any, Holds (.cons n s sf) ((a, v) : s.ty.Val × sf.ty.Vals) m x) ∧ c = b) ∧ _) ↔
      ((∃ x : Any, Holds sf v m x ∧ Came t x.1 x.2 c) ∨ (¬ ∃ x : Any, Holds sf v m x) ∧ c = b) ∧ Upd f sf v ws w
    simp only [e, ih]

/-- A field that holds something is read, the others after it. -/
theorem upd_something : ∀ (f : GFields) (n : Name) (s : GTy) (sf : GFields) (a : s.ty.Val) (v : sf.ty.Vals) (ws w : f.ty.Vals)
    (k : (t : GTy) → Option (t.ty.Val × List UInt8)) (r : List UInt8), Propers f → ¬ nothing s.ty a → n ∉ names sf →
    (∀ t, find f n = some t → ∀ c r', k t = some (c, r') ↔ r' = r ∧ Came t s a c) →
    (Upd f (.cons n s sf) ((a, v) : s.ty.Val × sf.ty.Vals) ws w ↔ ∃ ws', atField f n k (some r) ws = some (ws', r) ∧ Upd f sf v ws' w)
  | .nil, _, _, _, _, _, _, _, _, _, _, _, _, _ => ⟨fun _ => ⟨(), rfl, trivial⟩, fun _ => trivial⟩
  | .cons m t f, n, s, sf, a, v, ((b, ws) : t.ty.Val × f.ty.Vals), ((c, w) : t.ty.Val × f.ty.Vals), k, r, hf, h, hn, hk => by
    have e1 : ∀ ws' : f.ty.Vals, ∀ b' : t.ty.Val, Upd (.cons m t f) sf v ((b', ws') : t.ty.Val × f.ty.Vals) ((c, w) : t.ty.Val × f.ty.Vals) ↔
        (((∃ x : Any, Holds sf v m x ∧ Came t x.1 x.2 c) ∨ (¬ ∃ x : Any, Holds sf v m x) ∧ c = b') ∧ Upd f sf v ws' w) := fun _ _ => Iff.rfl
    have e2 : Upd (.cons m t f) (.cons n s sf) ((a, v) : s.ty.Val × sf.ty.Vals) ((b, ws) : t.ty.Val × f.ty.Vals) ((c, w) : t.ty.Val × f.ty.Vals) ↔
        (((∃ x : Any, Holds (.cons n s sf) ((a, v) : s.ty.Val × sf.ty.Vals) m x ∧ Came t x.1 x.2 c) ∨
          (¬ ∃ x : Any, Holds (.cons n s sf) ((a, v) : s.ty.Val × sf.ty.Vals) m x) ∧ c = b) ∧
          Upd f (.cons n s sf) ((a, v) : s.ty.Val × sf.ty.Vals) ws w) := Iff.rfl
    rw [e2]
    by_cases hm : m = n
    · subst hm
      have hu := upd_unknown f m s sf a v ws w hf.1
      rw [hu]
      have ea : atField (.cons m t f) m k (some r) ((b, ws) : t.ty.Val × f.ty.Vals) = (k t).map fun p => ((p.1, ws), p.2) := by
        show (if m = m then _ else _) = _
        exact if_pos rfl
      rw [ea]
      have hkt := hk t (by simp [find])
      constructor
      · rintro ⟨h1, h2⟩
        have hc : Came t s a c := by
          rcases h1 with ⟨x, h3, h4⟩ | ⟨h3, _⟩
          · obtain ⟨rfl, _⟩ := (holds_self s sf a v x).1 h3
            exact h4
          · exact absurd ⟨⟨s, a⟩, (holds_self s sf a v _).2 ⟨rfl, h⟩⟩ h3
        refine ⟨(c, ws), by rw [(hkt c r).2 ⟨rfl, hc⟩]; rfl, (e1 ws c).2 ⟨Or.inr ⟨?_, rfl⟩, h2⟩⟩
        rintro ⟨x, hx⟩
        exact holds_none hn x hx
      · rintro ⟨ws', h1, h2⟩
        obtain ⟨p, h3, h4⟩ := map_some h1
        obtain ⟨c', r'⟩ := p
        obtain ⟨rfl, hc⟩ := (hkt c' r').1 h3
        obtain rfl : ((c', ws) : t.ty.Val × f.ty.Vals) = ws' := (Prod.mk.inj h4).1
        obtain ⟨h5, h6⟩ := (e1 ws c').1 h2
        have : c = c' := by
          rcases h5 with ⟨x, hx, _⟩ | ⟨_, h⟩
          · exact absurd hx (holds_none hn x)
          · exact h
        subst this
        exact ⟨Or.inl ⟨⟨s, a⟩, (holds_self s sf a v _).2 ⟨rfl, h⟩, hc⟩, h6⟩
    · have ea : atField (.cons m t f) n k (some r) ((b, ws) : t.ty.Val × f.ty.Vals) =
          (atField f n k (some r) ws).map fun p => ((b, p.1), p.2) := by
        show (if m = n then _ else _) = _
        exact if_neg hm
      rw [ea]
      have ih := upd_something f n s sf a v ws w k r hf.2.2.2 h hn (fun t ht => hk t (by simpa [find, hm] using ht))
      rw [ih]
      simp only [holds_ne s sf a v (Ne.symm hm)]
      constructor
      · rintro ⟨h1, ws', h2, h3⟩
        exact ⟨(b, ws'), by rw [h2]; rfl, (e1 ws' b).2 ⟨h1, h3⟩⟩
      · rintro ⟨ws', h1, h2⟩
        obtain ⟨p, h3, h4⟩ := map_some h1
        obtain ⟨ws1, r'⟩ := p
        obtain ⟨h5, rfl⟩ := Prod.mk.inj h4
        obtain rfl : ((b, ws1) : t.ty.Val × f.ty.Vals) = ws' := h5
        obtain ⟨h6, h7⟩ := (e1 ws1 b).1 h2
        exact ⟨h6, ws1, h3, h7⟩

/-- What `atField` leaves of the bytes. -/
theorem atField_rest : ∀ (f : GFields) (n : Name) (k : (t : GTy) → Option (t.ty.Val × List UInt8)) (r : List UInt8) (ws ws' : f.ty.Vals)
    (r' : List UInt8), (∀ t, find f n = some t → ∀ c r', k t = some (c, r') → r' = r) → atField f n k (some r) ws = some (ws', r') → r' = r
  | .nil, n, k, r, ws, ws', r', _, h => by
    have h' : some (((), r) : Unit × List UInt8) = some (ws', r') := h
    exact (Prod.mk.inj (Option.some.inj h')).2.symm
  | .cons m t f, n, k, r, ((b, ws) : t.ty.Val × f.ty.Vals), ws', r', hk, h => by
    have h' : (if m = n then (k t).map fun p => (((p.1, ws) : t.ty.Val × f.ty.Vals), p.2)
      else (atField f n k (some r) ws).map fun p => (((b, p.1) : t.ty.Val × f.ty.Vals), p.2)) = some (ws', r') := h
    by_cases hm : m = n
    · rw [if_pos hm] at h'
      obtain ⟨p, h3, h4⟩ := map_some h'
      obtain ⟨c, r1⟩ := p
      obtain ⟨_, rfl⟩ := Prod.mk.inj h4
      exact hk t (by simp [find, hm]) c r1 h3
    · rw [if_neg hm] at h'
      obtain ⟨p, h3, h4⟩ := map_some h'
      obtain ⟨c, r1⟩ := p
      obtain ⟨_, rfl⟩ := Prod.mk.inj h4
      exact atField_rest f n k r ws c r1 (fun t ht => hk t (by simpa [find, hm] using ht)) h3

theorem getFieldsAs_zero (wf : WFields) (f : GFields) (ws : f.ty.Vals) (bs : List UInt8) : getFieldsAs wf f 0 ws bs = some (ws, bs) := by
  cases wf <;> rfl

theorem getFieldsAs_one (n : Name) (w : Wire) (wf : WFields) (f : GFields) (ws : f.ty.Vals) (bs : List UInt8) :
    getFieldsAs (.cons n w wf) f 1 ws bs = (match atField f n (fun t => alloc t fun b => getAs w b bs) (skip w bs) ws with
      | none => none
      | some (ws', r) =>
        match delta r with
        | none => none
        | some (d', r') => getFieldsAs wf f d' ws' r') := rfl

theorem getAs_slice (w : Wire) (t : GTy) (bs : List UInt8) : getAs (.slice w) (.slice t) bs = (match getUint bs with
    | none => none
    | some (n, r) =>
      (getAll (fun bs => alloc t fun b => getAs w b bs) n r).map fun p =>
        (show Option (List t.ty.Val) from if p.1.isEmpty then none else some p.1, p.2)) := rfl

theorem getAs_map (wk we : Wire) (k e : GTy) (bs : List UInt8) : getAs (.map wk we) (.map k e) bs = (match getUint bs with
    | none => none
    | some (n, r) =>
      (getAll (readEntry (fun bs => alloc k fun b => getAs wk b bs) (fun bs => alloc e fun b => getAs we b bs)) n r).map fun p =>
        (show Option (List (k.ty.Val × e.ty.Val)) from some p.1, p.2)) := rfl

/-- Elements of a slice. -/
theorem slice_rel {α : Type} {t : GTy} {p : α → Option (List UInt8)} {g : List UInt8 → Option (t.ty.Val × List UInt8)} {R : α → t.ty.Val → Prop}
    (l : List α) (hl : l.length < 2 ^ 63) (h : ∀ a ∈ l, ∀ bs r, p a = some bs → ∀ w r', g (bs ++ r) = some (w, r') ↔ r' = r ∧ R a w)
    (b r : List UInt8) (hb : putAll p l = some b) (w : Option (List t.ty.Val)) (r' : List UInt8) :
    (match getUint (putUint l.length ++ b ++ r) with
    | none => none
    | some (n, r) => (getAll g n r).map fun p => (if p.1.isEmpty then (none : Option (List t.ty.Val)) else some p.1, p.2)) = some (w, r') ↔
      r' = r ∧ (l = [] ∧ w = none ∨ l ≠ [] ∧ ∃ l', w = some l' ∧ List.Forall₂ R l l') := by
  have hall := getAll_rel l h b r hb
  rw [List.append_assoc, getUint_put _ (by omega)]
  simp only
  constructor
  · intro hg
    obtain ⟨q, h1, h2⟩ := map_some hg
    obtain ⟨l', r1⟩ := q
    obtain ⟨h3, rfl⟩ := Prod.mk.inj h2
    obtain ⟨rfl, h4⟩ := (hall l' r1).1 h1
    refine ⟨rfl, ?_⟩
    subst h3
    cases l with
    | nil =>
      obtain rfl := forall₂_nil_left h4
      exact Or.inl ⟨rfl, rfl⟩
    | cons a l =>
      cases h4 with
      | cons ha hl => exact Or.inr ⟨by simp, _, rfl, .cons ha hl⟩
  · rintro ⟨rfl, ⟨rfl, rfl⟩ | ⟨hne, l', rfl, h4⟩⟩
    · rw [(hall [] r').2 ⟨rfl, .nil⟩]
      rfl
    · rw [(hall l' r').2 ⟨rfl, h4⟩]
      cases h4 with
      | nil => exact absurd rfl hne
      | cons _ _ => rfl

/-- Entries of a map. -/
theorem map_rel {α β γ : Type} {p : α → Option (List UInt8)} {g : List UInt8 → Option ((β × γ) × List UInt8)} {R : α → β × γ → Prop}
    (l : List α) (hl : l.length < 2 ^ 63) (h : ∀ a ∈ l, ∀ bs r, p a = some bs → ∀ w r', g (bs ++ r) = some (w, r') ↔ r' = r ∧ R a w)
    (b r : List UInt8) (hb : putAll p l = some b) (w : Option (List (β × γ))) (r' : List UInt8) :
    (match getUint (putUint l.length ++ b ++ r) with
    | none => none
    | some (n, r) => (getAll g n r).map fun p => ((some p.1 : Option (List (β × γ))), p.2)) = some (w, r') ↔
      r' = r ∧ ∃ l', w = some l' ∧ List.Forall₂ R l l' := by
  have hall := getAll_rel l h b r hb
  rw [List.append_assoc, getUint_put _ (by omega)]
  simp only
  constructor
  · intro hg
    obtain ⟨q, h1, h2⟩ := map_some hg
    obtain ⟨l', r1⟩ := q
    obtain ⟨h3, rfl⟩ := Prod.mk.inj h2
    obtain ⟨rfl, h4⟩ := (hall l' r1).1 h1
    exact ⟨rfl, l', h3.symm, h4⟩
  · rintro ⟨rfl, l', rfl, h4⟩
    rw [(hall l' r').2 ⟨rfl, h4⟩]
    rfl

theorem readEntry_rel {α β : Type} {k : List UInt8 → Option (α × List UInt8)} {e : List UInt8 → Option (β × List UInt8)} {x y r : List UInt8}
    {R : α → Prop} {S : β → Prop} (hk : ∀ w r', k (x ++ (y ++ r)) = some (w, r') ↔ r' = y ++ r ∧ R w)
    (he : ∀ w r', e (y ++ r) = some (w, r') ↔ r' = r ∧ S w) (w : α × β) (r' : List UInt8) :
    readEntry k e (x ++ y ++ r) = some (w, r') ↔ r' = r ∧ R w.1 ∧ S w.2 := by
  rw [List.append_assoc]
  unfold readEntry
  constructor
  · intro h
    cases h1 : k (x ++ (y ++ r)) with
    | none => rw [h1] at h; simp at h
    | some q =>
      obtain ⟨a, r1⟩ := q
      obtain ⟨rfl, ha⟩ := (hk a r1).1 h1
      rw [h1] at h
      simp only at h
      cases h2 : e (y ++ r) with
      | none => rw [h2] at h; simp at h
      | some q =>
        obtain ⟨b, r2⟩ := q
        obtain ⟨rfl, hb⟩ := (he b r2).1 h2
        rw [h2] at h
        obtain ⟨rfl, rfl⟩ := Prod.mk.inj (Option.some.inj h)
        exact ⟨rfl, ha, hb⟩
  · rintro ⟨rfl, ha, hb⟩
    rw [(hk w.1 _).2 ⟨rfl, ha⟩]
    simp only
    rw [(he w.2 _).2 ⟨rfl, hb⟩]

theorem some_pair {α β : Type} {a a' : α} {b b' : β} : some (a, b) = some (a', b') ↔ b' = b ∧ a = a' := by
  rw [Option.some.injEq, Prod.mk.injEq]
  constructor
  · rintro ⟨rfl, rfl⟩; exact ⟨rfl, rfl⟩
  · rintro ⟨rfl, rfl⟩; exact ⟨rfl, rfl⟩

theorem any_inj {t : GTy} {v w : t.ty.Val} : (some (⟨t, v⟩ : Any) = some ⟨t, w⟩) ↔ v = w := by
  rw [Option.some.injEq]
  constructor
  · intro h
    exact eq_of_heq (Sigma.mk.inj h).2
  · rintro rfl; rfl

theorem basic_rel {α : Type} {o : Option (α × List UInt8)} {v w : α} {r r' : List UInt8} (h : o = some (v, r)) :
    o = some (w, r') ↔ r' = r ∧ v = w := by
  rw [h, some_pair]

theorem int_rel (n : Nat) (v w : BitVec 64) (r r' : List UInt8) : (match getInt (putInt v ++ r) with
      | none => none
      | some (x, r) => if isInt n x then some (x, r) else none) = some (w, r') ↔
      r' = r ∧ v = w ∧ -2 ^ (n - 1) ≤ w.toInt ∧ w.toInt < 2 ^ (n - 1) := by
  rw [getInt_put]
  simp only
  unfold isInt
  split
  · rename_i hi
    rw [some_pair]
    constructor
    · rintro ⟨rfl, rfl⟩
      exact ⟨rfl, rfl, of_decide_eq_true hi⟩
    · rintro ⟨rfl, rfl, _⟩
      exact ⟨rfl, rfl⟩
  · rename_i hi
    constructor
    · intro h; simp at h
    · rintro ⟨rfl, rfl, h'⟩
      exact absurd (decide_eq_true h') hi

theorem uint_rel (n : Nat) (v w : BitVec 64) (r r' : List UInt8) : (match getUint (putUint v.toNat ++ r) with
      | none => none
      | some (x, r) => if isUint n (BitVec.ofNat 64 x) then some (BitVec.ofNat 64 x, r) else none) = some (w, r') ↔
      r' = r ∧ v = w ∧ w.toNat < 2 ^ n := by
  rw [getUint_put _ v.isLt]
  simp only [BitVec.ofNat_toNat, BitVec.setWidth_eq]
  unfold isUint
  split
  · rename_i hi
    rw [some_pair]
    constructor
    · rintro ⟨rfl, rfl⟩
      exact ⟨rfl, rfl, of_decide_eq_true hi⟩
    · rintro ⟨rfl, rfl, _⟩
      exact ⟨rfl, rfl⟩
  · rename_i hi
    constructor
    · intro h; simp at h
    · rintro ⟨rfl, rfl, h'⟩
      exact absurd (decide_eq_true h') hi

mutual
theorem get_as : ∀ (s : GTy) (v : s.ty.Val) (bs r : List UInt8), Proper s → Exists s.ty v → put s.ty v = some bs →
    ∀ t, Proper t → fits (wireOf s) t.base = true → ∀ w r', (alloc t fun b => getAs (wireOf s) b (bs ++ r)) = some (w, r') ↔ r' = r ∧ Came t s v w
  | .ptr s, (none : Option s.ty.Val), bs, r, _, _, h, _, _, _, _, _ => by
    have : (none : Option (List UInt8)) = some bs := h
    simp at this
  | .ptr s, (some x : Option s.ty.Val), bs, r, hs, he, h, t, ht, hf, w, r' => by
    have := get_as s x bs r hs (he _ rfl) h t ht hf w r'
    rw [came_behind t (.ptr s) s (some x : Option s.ty.Val) x w rfl]
    exact this
  | .bool, v, bs, r, hs, he, h, t, ht, hf, w, r' => by
    refine alloc_iff (R := fun t w => Came t .bool v w) (fun _ _ => Iff.rfl) t ?_ w r'
    have hb := base_ne t
    revert hb hf
    generalize t.base = b
    intro hf hb w r'
    cases b <;> first
      | exact absurd rfl (hb _)
      | exact absurd (show false = true from hf) Bool.false_ne_true
      | skip
    have := get_put .bool v bs r he h
    show get .bool (bs ++ r) = some (w, r') ↔ r' = r ∧ some (⟨.bool, v⟩ : Any) = some ⟨.bool, w⟩
    exact (basic_rel this).trans (and_congr Iff.rfl any_inj.symm)
  | .int m, v, bs, r, hs, he, h, t, ht, hf, w, r' => by
    refine alloc_iff (R := fun t w => Came t (.int m) v w) (fun _ _ => Iff.rfl) t ?_ w r'
    have hb := base_ne t
    revert hb hf
    generalize t.base = b
    intro hf hb w r'
    cases b <;> first
      | exact absurd rfl (hb _)
      | exact absurd (show false = true from hf) Bool.false_ne_true
      | skip
    rename_i n
    obtain rfl : putInt v = bs := Option.some.inj h
    have e : (∃ m', some (⟨.int m, v⟩ : Any) = some ⟨.int m', w⟩) ↔ v = w := by
      constructor
      · rintro ⟨m', h⟩
        cases h
        rfl
      · rintro rfl
        exact ⟨m, rfl⟩
    exact (int_rel n v w r r').trans (and_congr Iff.rfl (and_congr e.symm Iff.rfl))
  | .uint m, v, bs, r, hs, he, h, t, ht, hf, w, r' => by
    refine alloc_iff (R := fun t w => Came t (.uint m) v w) (fun _ _ => Iff.rfl) t ?_ w r'
    have hb := base_ne t
    revert hb hf
    generalize t.base = b
    intro hf hb w r'
    cases b <;> first
      | exact absurd rfl (hb _)
      | exact absurd (show false = true from hf) Bool.false_ne_true
      | skip
    rename_i n
    obtain rfl : putUint (BitVec.toNat (w := 64) v) = bs := Option.some.inj h
    have e : (∃ m', some (⟨.uint m, v⟩ : Any) = some ⟨.uint m', w⟩) ↔ v = w := by
      constructor
      · rintro ⟨m', h⟩
        cases h
        rfl
      · rintro rfl
        exact ⟨m, rfl⟩
    exact (uint_rel n v w r r').trans (and_congr Iff.rfl (and_congr e.symm Iff.rfl))
  | .float, v, bs, r, hs, he, h, t, ht, hf, w, r' => by
    refine alloc_iff (R := fun t w => Came t .float v w) (fun _ _ => Iff.rfl) t ?_ w r'
    have hb := base_ne t
    revert hb hf
    generalize t.base = b
    intro hf hb w r'
    cases b <;> first
      | exact absurd rfl (hb _)
      | exact absurd (show false = true from hf) Bool.false_ne_true
      | skip
    have := get_put .float v bs r he h
    show get .float (bs ++ r) = some (w, r') ↔ r' = r ∧ some (⟨.float, v⟩ : Any) = some ⟨.float, w⟩
    exact (basic_rel this).trans (and_congr Iff.rfl any_inj.symm)
  | .str, v, bs, r, hs, he, h, t, ht, hf, w, r' => by
    refine alloc_iff (R := fun t w => Came t .str v w) (fun _ _ => Iff.rfl) t ?_ w r'
    have hb := base_ne t
    revert hb hf
    generalize t.base = b
    intro hf hb w r'
    cases b <;> first
      | exact absurd rfl (hb _)
      | exact absurd (show false = true from hf) Bool.false_ne_true
      | skip
    have := get_put .str v bs r he h
    show get .str (bs ++ r) = some (w, r') ↔ r' = r ∧ some (⟨.str, v⟩ : Any) = some ⟨.str, w⟩
    exact (basic_rel this).trans (and_congr Iff.rfl any_inj.symm)
  | .bytes, v, bs, r, hs, he, h, t, ht, hf, w, r' => by
    refine alloc_iff (R := fun t w => Came t .bytes v w) (fun _ _ => Iff.rfl) t ?_ w r'
    have hb := base_ne t
    revert hb hf
    generalize t.base = b
    intro hf hb w r'
    cases b <;> first
      | exact absurd rfl (hb _)
      | exact absurd (show false = true from hf) Bool.false_ne_true
      | skip
    have := get_put .bytes v bs r he h
    show get .bytes (bs ++ r) = some (w, r') ↔ r' = r ∧ ∃ x : Option (List UInt8), some (⟨.bytes, v⟩ : Any) = some ⟨.bytes, x⟩ ∧ _
    refine (basic_rel this).trans (and_congr Iff.rfl ?_)
    have e : ∀ v w : Option (List UInt8), back .bytes v = w ↔ (v.getD [] = [] ∧ w = none ∨ v.getD [] ≠ [] ∧ w = v) := by
      intro v w
      match v with
      | none => (simp [back]; exact eq_comm)
      | some [] => (simp [back]; exact eq_comm)
      | some (a :: l) => (simp [back]; exact eq_comm)
    constructor
    · intro h
      exact ⟨v, rfl, (e v w).1 h⟩
    · rintro ⟨x, h1, h2⟩
      obtain rfl : v = x := any_inj.1 h1
      exact (e v w).2 h2
  | .slice s, (v : Option (List s.ty.Val)), bs, r, hs, he, h, t, ht, hf, w, r' => by
    refine alloc_iff (R := fun t w => Came t (.slice s) v w) (fun _ _ => Iff.rfl) t ?_ w r'
    have hb := base_ne t
    have hp := proper_base t ht
    revert hb hf hp
    generalize t.base = b
    intro hf hb hp w r'
    cases b <;> first
      | exact absurd rfl (hb _)
      | exact absurd (show false = true from hf) Bool.false_ne_true
      | skip
    rename_i u
    have hl : (v.getD []).length < 2 ^ 63 ∧ ∀ x ∈ v.getD [], Exists s.ty x := by
      cases v with
      | none => simp
      | some l => exact he l rfl
    have h' : (putAll (put s.ty) (v.getD [])).map (putUint (v.getD []).length ++ ·) = some bs := h
    obtain ⟨b, hb', rfl⟩ := map_some h'
    have := slice_rel (t := u) (g := fun bs => alloc u fun b => getAs (wireOf s) b bs) (R := fun a b => Came u s a b) (v.getD []) hl.1
      (fun x hx bs r hpx w r' => get_as s x bs r hs (hl.2 x hx) hpx u hp hf w r') b r hb' w r'
    rw [wireOf, getAs_slice]
    refine this.trans (and_congr Iff.rfl ?_)
    show _ ↔ ∃ (s' : GTy) (x : Option (List s'.ty.Val)), some (⟨.slice s, v⟩ : Any) = some ⟨.slice s', x⟩ ∧ _
    constructor
    · exact fun h => ⟨s, v, rfl, h⟩
    · rintro ⟨s', x, h1, h2⟩
      cases h1
      exact h2
  | .map k e, (v : Option (List (k.ty.Val × e.ty.Val))), bs, r, hs, he, h, t, ht, hf, w, r' => by
    refine alloc_iff (R := fun t w => Came t (.map k e) v w) (fun _ _ => Iff.rfl) t ?_ w r'
    have hb := base_ne t
    have hp := proper_base t ht
    revert hb hf hp
    generalize t.base = b
    intro hf hb hp w r'
    cases b <;> first
      | exact absurd rfl (hb _)
      | exact absurd (show false = true from hf) Bool.false_ne_true
      | skip
    rename_i k' e'
    have hf' : fits (wireOf k) k'.base = true ∧ fits (wireOf e) e'.base = true := by
      simpa [wireOf, fits] using hf
    have hl : (v.getD []).length < 2 ^ 63 ∧ ∀ x ∈ v.getD [], Exists k.ty x.1 ∧ Exists e.ty x.2 := by
      cases v with
      | none => simp
      | some l => exact he l rfl
    have h' : (putAll (putEntry k.ty e.ty) (v.getD [])).map (putUint (v.getD []).length ++ ·) = some bs := h
    obtain ⟨b, hb', rfl⟩ := map_some h'
    have := map_rel (R := fun a b => Came k' k a.1 b.1 ∧ Came e' e a.2 b.2) (g := readEntry (fun bs => alloc k' fun b => getAs (wireOf k) b bs)
        (fun bs => alloc e' fun b => getAs (wireOf e) b bs)) (v.getD []) hl.1
      (fun x hx bs r hpx w r' => by
        obtain ⟨y, z, h1, h2, rfl⟩ := putEntry_some hpx
        exact readEntry_rel (fun w r' => get_as k x.1 y (z ++ r) hs.1 (hl.2 x hx).1 h1 k' hp.1 hf'.1 w r')
          (fun w r' => get_as e x.2 z r hs.2 (hl.2 x hx).2 h2 e' hp.2 hf'.2 w r') w r') b r hb' w r'
    rw [wireOf, getAs_map]
    refine this.trans (and_congr Iff.rfl ?_)
    show _ ↔ ∃ (k₁ e₁ : GTy) (x : Option (List (k₁.ty.Val × e₁.ty.Val))), some (⟨.map k e, v⟩ : Any) = some ⟨.map k₁ e₁, x⟩ ∧ _
    constructor
    · exact fun h => ⟨k, e, v, rfl, h⟩
    · rintro ⟨k₁, e₁, x, h1, h2⟩
      cases h1
      exact h2
  | .struct n sf, v, bs, r, hs, he, h, t, ht, hf, w, r' => by
    refine alloc_iff (R := fun t w => Came t (.struct n sf) v w) (fun _ _ => Iff.rfl) t ?_ w r'
    have hb := base_ne t
    have hp := proper_base t ht
    revert hb hf hp
    generalize t.base = b
    intro hf hb hp w r'
    cases b <;> first
      | exact absurd rfl (hb _)
      | exact absurd (show false = true from hf) Bool.false_ne_true
      | skip
    rename_i m f
    obtain ⟨hc, he⟩ := he
    obtain ⟨d, r1, h1, h2⟩ := fields_as sf v 1 bs r hs.2 he (by omega) (by omega) h f hp.2 hf
    have e : getAs (wireOf (.struct n sf)) (.struct m f) (bs ++ r) = getFieldsAs (wires sf) f d (zeros f.ty) r1 := by
      show (match delta (bs ++ r) with
        | none => none
        | some (d, r) => getFieldsAs (wires sf) f d (zeros f.ty) r) = _
      rw [delta_of h1]
    rw [e]
    have h3 : getFieldsAs (wires sf) f d (zeros f.ty) r1 = some (w, r') ↔ r' = r ∧ Upd f sf v (zeros f.ty) w := by
      rcases h2 with ⟨rfl, h2⟩ | ⟨_, h2⟩
      · exact h2 _ _ _
      · exact h2 _ _ _
    refine (h3.trans (and_congr Iff.rfl (upd_zeros f sf v w))).trans (and_congr Iff.rfl ?_)
    show _ ↔ ∃ (n' : Name) (f' : GFields) (x : f'.ty.Vals), some (⟨.struct n sf, v⟩ : Any) = some ⟨.struct n' f', x⟩ ∧ _
    constructor
    · exact fun h => ⟨n, sf, v, rfl, h⟩
    · rintro ⟨n', f', x, h1, h2⟩
      cases h1
      exact h2
theorem fields_as : ∀ (sf : GFields) (v : sf.ty.Vals) (gap : Nat) (bs r : List UInt8), Propers sf → Existss sf.ty v → 1 ≤ gap →
    gap + count sf.ty < 2 ^ 64 → putFields sf.ty gap v = some bs → ∀ f : GFields, Propers f → fitsFields (wires sf) f = true →
    ∃ d r1, getUint (bs ++ r) = some (d, r1) ∧
      (d = 0 ∧ (∀ ws w r', getFieldsAs (wires sf) f 0 ws r1 = some (w, r') ↔ r' = r ∧ Upd f sf v ws w) ∨
        gap ≤ d ∧ (∀ ws w r', getFieldsAs (wires sf) f (d - (gap - 1)) ws r1 = some (w, r') ↔ r' = r ∧ Upd f sf v ws w))
  | .nil, v, gap, bs, r, _, _, _, _, h, f, _, _ => by
    obtain rfl : putUint 0 = bs := Option.some.inj h
    refine ⟨0, r, getUint_put 0 (by omega) r, Or.inl ⟨rfl, fun ws w r' => ?_⟩⟩
    rw [getFieldsAs_zero, some_pair]
    refine and_congr Iff.rfl ?_
    exact (upd_empty f v ws w).symm
  | .cons n s sf, ((a, v) : s.ty.Val × sf.ty.Vals), gap, bs, r, hs, he, hg, hc, h, f, hp, hf => by
    obtain ⟨he1, he2⟩ : Exists s.ty a ∧ Existss sf.ty v := he
    have hc : gap + (count sf.ty + 1) < 2 ^ 64 := hc
    replace h : putFields (.cons s.ty sf.ty) gap (a, v) = some bs := h
    rw [putFields_cons] at h
    have hf' : (match find f n with
      | none => true
      | some t => fits (wireOf s) t.base) = true ∧ fitsFields (wires sf) f = true := by
      have : ((match find f n with
        | none => true
        | some t => fits (wireOf s) t.base) && fitsFields (wires sf) f) = true := hf
      exact Bool.and_eq_true_iff.1 this
    by_cases ho : omitted s.ty a = true
    · rw [if_pos ho] at h
      have hno := (omitted_iff s.ty a).1 ho
      obtain ⟨d, r1, h1, h2⟩ := fields_as sf v (gap + 1) bs r hs.2.2.2 he2 (by omega) (by omega) h f hp hf'.2
      refine ⟨d, r1, h1, ?_⟩
      rcases h2 with ⟨rfl, h2⟩ | ⟨hd, h2⟩
      · left
        refine ⟨rfl, fun ws w r' => ?_⟩
        rw [upd_nothing f n s sf a v ws w hno hs.1, ← h2 ws w r', getFieldsAs_zero, getFieldsAs_zero]
      · right
        refine ⟨by omega, fun ws w r' => ?_⟩
        obtain ⟨j, hj⟩ : ∃ j, d - (gap - 1) = j + 2 := ⟨d - (gap - 1) - 2, by omega⟩
        have hj' : d - (gap + 1 - 1) = j + 1 := by omega
        rw [upd_nothing f n s sf a v ws w hno hs.1, ← h2 ws w r', hj, hj']
        exact Iff.rfl
    · rw [if_neg ho] at h
      have hno : ¬ nothing s.ty a := fun hn => ho ((omitted_iff s.ty a).2 hn)
      cases h1 : put s.ty a with
      | none => rw [h1] at h; simp at h
      | some x =>
        cases h2 : putFields sf.ty 1 v with
        | none => rw [h1, h2] at h; simp at h
        | some y =>
          rw [h1, h2] at h
          simp only [Option.some.injEq] at h
          subst h
          refine ⟨gap, x ++ (y ++ r), ?_, Or.inr ⟨Nat.le_refl _, fun ws w r' => ?_⟩⟩
          · rw [List.append_assoc, List.append_assoc]
            exact getUint_put gap (by omega) _
          · have e : gap - (gap - 1) = 1 := by omega
            have hk : ∀ t, find f n = some t → ∀ c r', (alloc t fun b => getAs (wireOf s) b (x ++ (y ++ r))) = some (c, r') ↔
                r' = y ++ r ∧ Came t s a c := by
              intro t hft c r'
              have h3 := hf'.1
              rw [hft] at h3
              exact get_as s a x (y ++ r) hs.2.2.1 he1 h1 t (find_proper f n t hp hft) h3 c r'
            rw [e, wires, getFieldsAs_one, skip_put s a x (y ++ r) he1 h1,
              upd_something f n s sf a v ws w (fun t => alloc t fun b => getAs (wireOf s) b (x ++ (y ++ r))) (y ++ r) hp hno hs.1 hk]
            obtain ⟨d, r1, h3, h4⟩ := fields_as sf v 1 y r hs.2.2.2 he2 (by omega) (by omega) h2 f hp hf'.2
            have h5 : ∀ ws w r', getFieldsAs (wires sf) f d ws r1 = some (w, r') ↔ r' = r ∧ Upd f sf v ws w := by
              rcases h4 with ⟨rfl, h4⟩ | ⟨_, h4⟩
              · exact h4
              · exact h4
            constructor
            · intro hg
              cases hat : atField f n (fun t => alloc t fun b => getAs (wireOf s) b (x ++ (y ++ r))) (some (y ++ r)) ws with
              | none => rw [hat] at hg; simp at hg
              | some q =>
                obtain ⟨ws', r2⟩ := q
                obtain rfl := atField_rest f n _ (y ++ r) ws ws' r2 (fun t ht c r' hc => ((hk t ht c r').1 hc).1) hat
                rw [hat] at hg
                simp only [delta_of h3] at hg
                obtain ⟨rfl, h6⟩ := (h5 ws' w r').1 hg
                exact ⟨rfl, ws', rfl, h6⟩
            · rintro ⟨rfl, ws', hat, h6⟩
              rw [hat]
              simp only [delta_of h3]
              exact (h5 ws' w r').2 ⟨rfl, h6⟩
end

end Gofer.GobType
