import Verif.Proof.JsonStruct
/-!
# What comes back, and what fits
-/
namespace Gofer.JsonStruct
open Gofer.Spec.Json (Bytes Text Fixed StrDoc Space NatDoc filled put)
open Gofer.Spec.JsonStruct hiding Empty
open Gofer.Json hiding jsonDecode jsonEncode

variable (fold : Bytes → Bytes)

/-! ## What comes back -/

theorem get_some {A : Type} {l : List A} {i : Nat} (h : i < l.length) : ∃ a, l[i]? = some a := ⟨l[i], List.getElem?_eq_getElem h⟩

theorem get_lt {A : Type} {l : List A} {i : Nat} {a : A} (h : l[i]? = some a) : i < l.length := by
  by_contra hc
  rw [List.getElem?_eq_none (by omega)] at h
  simp at h

mutual
theorem back_view : ∀ (t : T) (v w : V), Good t → Is t v → Back t v w → View fold t t v w
  | .bool, v, w, _, hv, h => by
    obtain ⟨b, rfl⟩ := hv
    cases h
    exact .bool b
  | .int s n, v, w, _, hv, h => by
    obtain ⟨i, rfl, hi⟩ := hv
    cases h
    exact .int s s n n i hi
  | .str, v, w, _, hv, h => by
    obtain ⟨s, s', rfl, rfl, hs⟩ := h
    exact .str s s' hs
  | .ptr t, v, w, hg, hv, h => by
    rcases h with ⟨hn, rfl⟩ | ⟨u, x, rfl, hn, rfl, hb⟩
    · exact .null (.ptr t) (.ptr t) v hn
    · rcases hv with hv | ⟨_, hv, hu⟩
      · cases hv
      · cases hv
        have := back_view t u x hg hu hb
        refine .toPtr (.ptr t) t (.ptr u) x ?_ (.fromPtr t t u x hn this)
        intro h
        cases h
        exact hn (by assumption)
  | .list t, v, w, hg, hv, h => by
    rcases h with ⟨rfl, rfl⟩ | ⟨l, b, l', rfl, rfl, hl⟩
    · exact .null (.list t) (.list t) .nil .nil
    · rcases hv with hv | ⟨_, _, hv, hu, _⟩
      · cases hv
      · cases hv
        have ih := fun x y => back_view t x y hg.1
        exact .list t t l b l' hl.length_eq fun i v w h1 h2 => ih v w (hu v (List.mem_of_getElem? h1)) (getElem?_of_forall₂ hl i v w h1 h2)
  | .map t, v, w, hg, hv, h => by
    rcases h with ⟨rfl, rfl⟩ | ⟨l, m, rfl, rfl, hl⟩
    · exact .null (.map t) (.map t) .nil .nil
    · rcases hv with hv | ⟨_, hv, _, hu⟩
      · cases hv
      · cases hv
        have ih := fun x y => back_view t x y hg
        exact .map t t l m hl.length_eq (fun i e f h1 h2 => (getElem?_of_forall₂ hl i e f h1 h2).1)
          fun i e f h1 h2 => ih e.2 f.2 (hu e (List.mem_of_getElem? h1)) (getElem?_of_forall₂ hl i e f h1 h2).2
  | .struct fs, v, w, hg, hv, h => by
    obtain ⟨l, l', rfl, rfl, hb⟩ := h
    obtain ⟨_, hv, hl⟩ := hv
    cases hv
    obtain ⟨h1, h2, h3⟩ := backF_view fs l l' hg.2 hl hb
    refine .struct fs fs l l' some h2 (fun f hf => .inl ⟨f, hf, rfl⟩) ?_ ?_ ?_ ?_
    · intro k g _ h
      simp at h
    · intro k i g hk hi
      simp only [Option.some.injEq] at hi
      subst hi
      obtain ⟨v, hv⟩ := get_some (l := l) (i := k) (by rw [h1]; exact get_lt hk)
      exact ⟨g, v, hk, rfl, hv⟩
    · intro k i f g v hk hi hf hv hb he
      simp only [Option.some.injEq] at hi
      subst hi
      rw [hk] at hf
      simp only [Option.some.injEq] at hf
      subst hf
      obtain ⟨w, hw⟩ := get_some (l := l') (i := k) (by rw [h2]; exact get_lt hk)
      rcases h3 k g v w hk hv hw with ⟨_, _, rfl⟩ | ⟨h, _⟩
      · exact hw
      · exact absurd ⟨hb, he⟩ h
    · intro k i f g v w hk hi hf hv hw hn
      simp only [Option.some.injEq] at hi
      subst hi
      rw [hk] at hf
      simp only [Option.some.injEq] at hf
      subst hf
      rcases h3 k g v w hk hv hw with ⟨h, h', _⟩ | ⟨_, h⟩
      · exact absurd ⟨h, h'⟩ hn
      · exact h

theorem backF_view : ∀ (fs : Fields) (l l' : List V), GoodF fs → IsF fs l → BackF fs l l' →
    l.length = fs.toList.length ∧ l'.length = fs.toList.length ∧
      ∀ (k : Nat) (f : Field) (v w : V), fs.toList[k]? = some f → l[k]? = some v → l'[k]? = some w →
        (f.brief = true ∧ Spec.JsonStruct.Empty v ∧ w = zero f.t) ∨ (¬ (f.brief = true ∧ Spec.JsonStruct.Empty v) ∧ View fold f.t f.t v w)
  | .nil, l, l', _, _, h => by
    obtain ⟨rfl, rfl⟩ := h
    simp [Fields.toList]
  | .cons n o t fs, l, l', hg, hl, h => by
    obtain ⟨v, r, w, r', rfl, rfl, h1, h2⟩ := h
    obtain ⟨_, _, hl, hv, hr⟩ := hl
    cases hl
    obtain ⟨i1, i2, i3⟩ := backF_view fs r r' hg.2.2 hr h2
    refine ⟨by simp [Fields.toList, i1], by simp [Fields.toList, i2], ?_⟩
    have ih := back_view t v w hg.2.1 hv
    intro k f x y hk hx hy
    match k with
    | 0 =>
      simp only [Fields.toList, List.getElem?_cons_zero, Option.some.injEq] at hk hx hy
      subst hk hx hy
      rcases h1 with h1 | ⟨h1, h3⟩
      · exact .inl h1
      · exact .inr ⟨h1, ih h3⟩
    | k + 1 => exact i3 k f x y (by simpa [Fields.toList] using hk) (by simpa using hx) (by simpa using hy)
end

theorem forall₂_exists {A B : Type} {R : A → B → Prop} (l : List A) (h : ∀ a ∈ l, ∃ b, R a b) : ∃ l', List.Forall₂ R l l' := by
  induction l with
  | nil => exact ⟨[], .nil⟩
  | cons a l ih =>
    obtain ⟨b, hb⟩ := h a (by simp)
    obtain ⟨l', hl⟩ := ih fun a ha => h a (by simp [ha])
    exact ⟨b :: l', .cons hb hl⟩

mutual
theorem back_exists : ∀ (t : T) (v : V), Is t v → ∃ w, Back t v w
  | .bool, v, _ => ⟨v, rfl⟩
  | .int _ _, v, _ => ⟨v, rfl⟩
  | .str, v, h => by
    obtain ⟨s, rfl⟩ := h
    exact ⟨.str (fix s.length s), s, _, rfl, rfl, fixed_fix _ _ (le_refl _)⟩
  | .ptr t, v, h => by
    rcases h with rfl | ⟨u, rfl, hu⟩
    · exact ⟨.nil, .inl ⟨.nil, rfl⟩⟩
    · by_cases hn : Null u
      · exact ⟨.nil, .inl ⟨.ptr u hn, rfl⟩⟩
      · obtain ⟨x, hx⟩ := back_exists t u hu
        exact ⟨.ptr x, .inr ⟨u, x, rfl, hn, rfl, hx⟩⟩
  | .list t, v, h => by
    rcases h with rfl | ⟨l, b, rfl, hl, _⟩
    · exact ⟨.nil, .inl ⟨rfl, rfl⟩⟩
    · have ih := fun x hx => back_exists t x (hl x hx)
      obtain ⟨l', h'⟩ := forall₂_exists l ih
      exact ⟨.list l' [], .inr ⟨l, b, l', rfl, rfl, h'⟩⟩
  | .map t, v, h => by
    rcases h with rfl | ⟨l, rfl, _, hl⟩
    · exact ⟨.nil, .inl ⟨rfl, rfl⟩⟩
    · have ih := fun x hx => back_exists t x.2 (hl x hx)
      obtain ⟨m, h'⟩ := forall₂_exists (R := fun (e e' : Bytes × V) => Fixed e.1 e'.1 ∧ Back t e.2 e'.2) l (fun e he => by
        obtain ⟨w, hw⟩ := ih e he
        exact ⟨(fix e.1.length e.1, w), fixed_fix _ _ (le_refl _), hw⟩)
      exact ⟨.map (filled m), .inr ⟨l, m, rfl, rfl, h'⟩⟩
  | .struct fs, v, h => by
    obtain ⟨l, rfl, hl⟩ := h
    obtain ⟨l', h'⟩ := backF_exists fs l hl
    exact ⟨.struct l', l, l', rfl, rfl, h'⟩

theorem backF_exists : ∀ (fs : Fields) (l : List V), IsF fs l → ∃ l', BackF fs l l'
  | .nil, l, h => by
    cases h
    exact ⟨[], rfl, rfl⟩
  | .cons n o t fs, l, h => by
    obtain ⟨v, r, rfl, hv, hr⟩ := h
    obtain ⟨r', hr'⟩ := backF_exists fs r hr
    obtain ⟨w, hw⟩ := back_exists t v hv
    by_cases he : o = true ∧ Spec.JsonStruct.Empty v
    · exact ⟨zero t :: r', v, r, zero t, r', rfl, rfl, .inl ⟨he.1, he.2, rfl⟩, hr'⟩
    · exact ⟨w :: r', v, r, w, r', rfl, rfl, .inr ⟨he, hw⟩, hr'⟩
end

mutual
theorem back_plain : ∀ (t : T) (v : V), Is t v → Plain t v → Back t v v
  | .bool, v, _, _ => rfl
  | .int _ _, v, _, _ => rfl
  | .str, v, hv, h => by
    obtain ⟨s, rfl⟩ := hv
    exact ⟨s, s, rfl, rfl, fixed_text (h s rfl)⟩
  | .ptr t, v, hv, h => by
    rcases hv with rfl | ⟨u, rfl, hu⟩
    · exact .inl ⟨.nil, rfl⟩
    · exact .inr ⟨u, u, rfl, (h u rfl).1, rfl, back_plain t u hu (h u rfl).2⟩
  | .list t, v, hv, h => by
    rcases hv with rfl | ⟨l, b, rfl, hl, _⟩
    · exact .inl ⟨rfl, rfl⟩
    · obtain ⟨rfl, h2⟩ := h l b rfl
      have ih := fun x hx => back_plain t x (hl x hx) (h2 x hx)
      exact .inr ⟨l, [], l, rfl, rfl, List.forall₂_same.2 ih⟩
  | .map t, v, hv, h => by
    rcases hv with rfl | ⟨l, rfl, hs, hl⟩
    · exact .inl ⟨rfl, rfl⟩
    · have h2 := h l rfl
      have ih := fun e he => back_plain t e.2 (hl e he) (h2 e he).2
      refine .inr ⟨l, l, rfl, by rw [filled_sorted l hs], List.forall₂_same.2 fun e he => ⟨fixed_text (h2 e he).1, ih e he⟩⟩
  | .struct fs, v, hv, h => by
    obtain ⟨l, rfl, hl⟩ := hv
    exact ⟨l, l, rfl, rfl, backF_plain fs l hl (h l rfl)⟩

theorem backF_plain : ∀ (fs : Fields) (l : List V), IsF fs l → PlainF fs l → BackF fs l l
  | .nil, l, hl, _ => ⟨hl, hl⟩
  | .cons n o t fs, l, hl, h => by
    obtain ⟨v, r, rfl, hv, hr⟩ := hl
    obtain ⟨h1, h2, h3⟩ := h v r rfl
    refine ⟨v, r, v, r, rfl, rfl, ?_, backF_plain fs r hr h3⟩
    by_cases he : o = true ∧ Spec.JsonStruct.Empty v
    · exact .inl ⟨he.1, he.2, h1 he.1 he.2⟩
    · exact .inr ⟨he, back_plain t v hv h2⟩
end

theorem zero_plain : ∀ t : T, Plain t (zero t) := by
  have key : (∀ t : T, Plain t (zero t)) ∧ ∀ fs : Fields, PlainF fs (zeros fs) := by
    constructor
    · intro t
      exact T.rec (motive_1 := fun t => Plain t (zero t)) (motive_2 := fun fs => PlainF fs (zeros fs)) trivial (fun _ _ => trivial)
        (by intro s hs; cases hs; exact .nil) (by intro t _ u hu; cases hu) (by intro t _ l b hu; cases hu) (by intro t _ l hu; cases hu)
        (by intro fs ih l hl; cases hl; exact ih) trivial (by intro n o t fs h1 h2 v r hr; cases hr; exact ⟨fun _ _ => rfl, h1, h2⟩) t
    · intro fs
      exact Fields.rec (motive_1 := fun t => Plain t (zero t)) (motive_2 := fun fs => PlainF fs (zeros fs)) trivial (fun _ _ => trivial)
        (by intro s hs; cases hs; exact .nil) (by intro t _ u hu; cases hu) (by intro t _ l b hu; cases hu) (by intro t _ l hu; cases hu)
        (by intro fs ih l hl; cases hl; exact ih) trivial (by intro n o t fs h1 h2 v r hr; cases hr; exact ⟨fun _ _ => rfl, h1, h2⟩) fs
  exact key.1

theorem put_ne_nil {A : Type} (k : Bytes) (v : A) (l : List (Bytes × A)) : put k v l ≠ [] := by
  cases l with
  | nil => simp [put]
  | cons e l =>
    obtain ⟨k', v'⟩ := e
    rw [put]
    split
    · simp
    · split <;> simp

theorem foldl_put_nil {A : Type} (m : List (Bytes × A)) (a : List (Bytes × A)) (h : m.foldl (fun m e => put e.1 e.2 m) a = []) : m = [] := by
  induction m using List.reverseRecOn with
  | nil => rfl
  | append_singleton m e _ =>
    rw [List.foldl_append] at h
    exact absurd h (put_ne_nil _ _ _)

theorem back_empty (t : T) (v w : V) (hv : Is t v) (h : Back t v w) (he : Spec.JsonStruct.Empty w) : Spec.JsonStruct.Empty v ∨ w = zero t := by
  match t, hv, h with
  | .bool, _, h => cases h; exact .inl he
  | .int _ _, _, h => cases h; exact .inl he
  | .str, _, h =>
    obtain ⟨s, s', rfl, rfl, hs⟩ := h
    right
    simp only [Spec.JsonStruct.Empty, reduceCtorEq, V.str.injEq, false_or, or_false, exists_false] at he
    rw [he]
    rfl
  | .ptr t, _, h =>
    rcases h with ⟨_, rfl⟩ | ⟨u, x, rfl, _, rfl, _⟩
    · exact .inr rfl
    · simp [Spec.JsonStruct.Empty] at he
  | .list t, _, h =>
    rcases h with ⟨rfl, rfl⟩ | ⟨l, b, l', rfl, rfl, hl⟩
    · exact .inr rfl
    · left
      simp only [Spec.JsonStruct.Empty, reduceCtorEq, V.list.injEq, false_or, or_false] at he
      obtain ⟨_, rfl, _⟩ := he
      cases hl
      simp [Spec.JsonStruct.Empty]
  | .map t, _, h =>
    rcases h with ⟨rfl, rfl⟩ | ⟨l, m, rfl, rfl, hl⟩
    · exact .inr rfl
    · left
      simp only [Spec.JsonStruct.Empty, reduceCtorEq, V.map.injEq, false_or, exists_false] at he
      have := foldl_put_nil m [] he
      subst this
      cases hl
      simp [Spec.JsonStruct.Empty]
  | .struct fs, _, h =>
    obtain ⟨l, l', rfl, rfl, _⟩ := h
    simp [Spec.JsonStruct.Empty] at he

theorem put_mem {A : Type} (k : Bytes) (v : A) (l : List (Bytes × A)) (e : Bytes × A) (h : e ∈ put k v l) : e = (k, v) ∨ e ∈ l := by
  induction l with
  | nil => simp [put] at h; exact .inl h
  | cons a l ih =>
    obtain ⟨k', v'⟩ := a
    rw [put] at h
    split at h
    · simpa using h
    · split at h
      · rcases List.mem_cons.1 h with h | h
        · exact .inl h
        · exact .inr (by simp [h])
      · rcases List.mem_cons.1 h with h | h
        · exact .inr (by simp [h])
        · rcases ih h with h | h
          · exact .inl h
          · exact .inr (by simp [h])

theorem filled_mem {A : Type} (m : List (Bytes × A)) (a : List (Bytes × A)) (e : Bytes × A) (h : e ∈ m.foldl (fun m e => put e.1 e.2 m) a) : e ∈ m ∨ e ∈ a := by
  induction m generalizing a with
  | nil => exact .inr h
  | cons x m ih =>
    rcases ih _ h with h | h
    · exact .inl (by simp [h])
    · rcases put_mem _ _ _ _ h with h | h
      · exact .inl (by simp [h])
      · exact .inr h

theorem forall₂_mem_right {A B : Type} {R : A → B → Prop} {l : List A} {l' : List B} (h : List.Forall₂ R l l') : ∀ b ∈ l', ∃ a ∈ l, R a b := by
  induction h with
  | nil => simp
  | cons h1 _ ih =>
    intro b hb
    rcases List.mem_cons.1 hb with rfl | hb
    · exact ⟨_, by simp, h1⟩
    · obtain ⟨a, ha, hr⟩ := ih b hb
      exact ⟨a, by simp [ha], hr⟩

theorem back_null (t : T) (u x : V) (hu : Is t u) (hn : ¬ Null u) (h : Back t u x) : ¬ Null x := by
  match t, hu, h with
  | .bool, hu, h => cases h; exact hn
  | .int _ _, hu, h => cases h; exact hn
  | .str, hu, h =>
    obtain ⟨s, s', rfl, rfl, hs⟩ := h
    intro h; cases h
  | .ptr t, hu, h =>
    rcases h with ⟨h, _⟩ | ⟨u', x', rfl, hn', rfl, hb⟩
    · exact absurd h hn
    · rcases hu with hu | ⟨_, hu, hu'⟩
      · cases hu
      · cases hu
        have := back_null t u' x' hu' hn' hb
        intro h
        cases h
        exact this (by assumption)
  | .list t, hu, h =>
    rcases h with ⟨rfl, rfl⟩ | ⟨l, b, l', rfl, rfl, hl⟩
    · exact hn
    · intro h; cases h
  | .map t, hu, h =>
    rcases h with ⟨rfl, rfl⟩ | ⟨l, m, rfl, rfl, hl⟩
    · exact hn
    · intro h; cases h
  | .struct fs, hu, h =>
    obtain ⟨l, l', rfl, rfl, _⟩ := h
    intro h; cases h

mutual
theorem plain_back : ∀ (t : T) (v w : V), Is t v → Back t v w → Plain t w
  | .bool, _, _, _, _ => trivial
  | .int _ _, _, _, _, _ => trivial
  | .str, v, w, hv, h => by
    obtain ⟨s, s', rfl, rfl, hs⟩ := h
    intro x hx
    cases hx
    exact text_fixed hs
  | .ptr t, v, w, hv, h => by
    rcases h with ⟨_, rfl⟩ | ⟨u, x, rfl, hn, rfl, hb⟩
    · intro u hu; cases hu
    · rcases hv with hv | ⟨_, hv, hu⟩
      · cases hv
      · cases hv
        intro y hy
        cases hy
        exact ⟨back_null t u x hu hn hb, plain_back t u x hu hb⟩
  | .list t, v, w, hv, h => by
    rcases h with ⟨rfl, rfl⟩ | ⟨l, b, l', rfl, rfl, hl⟩
    · intro l b h; cases h
    · rcases hv with hv | ⟨_, _, hv, hu, _⟩
      · cases hv
      · cases hv
        have ih := fun x y => plain_back t x y
        intro l2 b2 h
        cases h
        refine ⟨rfl, fun y hy => ?_⟩
        obtain ⟨x, hx, hb⟩ := forall₂_mem_right hl y hy
        exact ih x y (hu x hx) hb
  | .map t, v, w, hv, h => by
    rcases h with ⟨rfl, rfl⟩ | ⟨l, m, rfl, rfl, hl⟩
    · intro l h; cases h
    · rcases hv with hv | ⟨_, hv, _, hu⟩
      · cases hv
      · cases hv
        have ih := fun x y => plain_back t x y
        intro l2 h
        cases h
        intro e he
        rcases filled_mem m [] e he with he | he
        · obtain ⟨x, hx, hb⟩ := forall₂_mem_right hl e he
          exact ⟨text_fixed hb.1, ih x.2 e.2 (hu x hx) hb.2⟩
        · simp at he
  | .struct fs, v, w, hv, h => by
    obtain ⟨l, l', rfl, rfl, hb⟩ := h
    obtain ⟨_, hv, hl⟩ := hv
    cases hv
    intro l2 h
    cases h
    exact plainF_back fs l l' hl hb

theorem plainF_back : ∀ (fs : Fields) (l l' : List V), IsF fs l → BackF fs l l' → PlainF fs l'
  | .nil, _, _, _, _ => trivial
  | .cons n o t fs, l, l', hl, h => by
    obtain ⟨v, r, w, r', rfl, rfl, h1, h2⟩ := h
    obtain ⟨_, _, hl, hv, hr⟩ := hl
    cases hl
    have ih := plain_back t v w hv
    have ih2 := plainF_back fs r r' hr h2
    intro x y hxy
    cases hxy
    rcases h1 with ⟨_, _, rfl⟩ | ⟨h1, h3⟩
    · exact ⟨fun _ _ => rfl, zero_plain t, ih2⟩
    · refine ⟨fun ho he => ?_, ih h3, ih2⟩
      rcases back_empty t v w hv h3 he with h | h
      · exact absurd ⟨ho, h⟩ h1
      · exact h
end

/-! ## What is stored is of the type -/

theorem inRange_zero (s : Bool) (n : Nat) : InRange s n 0 := by
  unfold InRange
  have h1 : (0 : Int) < 2 ^ (n - 1) := by exact_mod_cast Nat.pow_pos (by decide)
  have h2 : (0 : Int) < 2 ^ n := by exact_mod_cast Nat.pow_pos (by decide)
  split <;> omega

mutual
theorem is_zero : ∀ t : T, Is t (zero t)
  | .bool => ⟨false, rfl⟩
  | .int s n => ⟨0, rfl, inRange_zero s n⟩
  | .str => ⟨[], rfl⟩
  | .ptr _ => .inl rfl
  | .list _ => .inl rfl
  | .map _ => .inl rfl
  | .struct fs => ⟨_, rfl, isF_zeros fs⟩

theorem isF_zeros : ∀ fs : Fields, IsF fs (zeros fs)
  | .nil => rfl
  | .cons _ _ t fs => ⟨_, _, rfl, is_zero t, isF_zeros fs⟩
end

theorem is_inner {t : T} {v : V} (h : Is (.ptr t) v) : Is t (match (generalizing := false) v with | .ptr u => u | _ => zero t) := by
  rcases h with rfl | ⟨u, rfl, hu⟩
  · exact is_zero t
  · exact hu

theorem parseNum_range (s : Bool) (n : Nat) (lit : Bytes) (i : Int) (h : parseNum s n lit = some i) : InRange s n i := by
  unfold parseNum at h
  unfold InRange
  split at h
  · rename_i hs
    rw [if_pos hs]
    split at h
    · simp only [] at h
      generalize (if (minus lit).1 = [45] then -(parseNat (minus lit).2 : Int) else (parseNat (minus lit).2 : Int)) = x at h
      split at h
      · simp only [Option.some.injEq] at h
        subst h
        assumption
      · simp at h
    · simp at h
  · rename_i hs
    rw [if_neg hs]
    split at h
    · split at h
      · rename_i hlt
        simp only [Option.some.injEq] at h
        subst h
        exact ⟨by omega, by exact_mod_cast hlt⟩
      · simp at h
    · simp at h

theorem is_nullify (t : T) (v : V) (h : Is t v) : Is t (nullify t v) := by
  cases t with
  | ptr t => exact .inl rfl
  | list t => exact .inl rfl
  | map t => exact .inl rfl
  | _ => exact h

theorem forall₂_set {A B : Type} {R : A → B → Prop} {l : List A} {l' : List B} (h : List.Forall₂ R l l') (i : Nat) (a : A) (b : B) (ha : l[i]? = some a)
    (hb : R a b) : List.Forall₂ R l (l'.set i b) := by
  induction h generalizing i with
  | nil => simp at ha
  | cons h1 h2 ih =>
    match i with
    | 0 =>
      simp only [List.getElem?_cons_zero, Option.some.injEq] at ha
      subst ha
      exact .cons hb h2
    | i + 1 => exact .cons h1 (ih i (by simpa using ha))

/-- Through the pointers to what they point at. -/
theorem ptr_induct {P : T → Prop} (bool : P .bool) (int : ∀ s n, P (.int s n)) (str : P .str) (ptr : ∀ t, P t → P (.ptr t)) (list : ∀ t, P (.list t))
    (map : ∀ t, P (.map t)) (struct : ∀ fs, P (.struct fs)) : ∀ t, P t
  | .bool => bool
  | .int s n => int s n
  | .str => str
  | .ptr t => ptr t (ptr_induct bool int str ptr list map struct t)
  | .list t => list t
  | .map t => map t
  | .struct fs => struct fs

mutual
theorem store_is : ∀ (j : J) (t : T) (v : V), Is t v → Is t (store fold t v j).1
  | .null, t, v, h => is_nullify t v h
  | .bool b, t, v, h => by
    induction t using ptr_induct generalizing v with
    | ptr t ih =>
      rw [store_ptr fold t v _ (by simp)]
      exact .inr ⟨_, rfl, ih _ (is_inner h)⟩
    | bool => exact ⟨b, rfl⟩
    | int => exact h
    | str => exact h
    | list => exact h
    | map => exact h
    | struct => exact h
  | .num lit, t, v, h => by
    induction t using ptr_induct generalizing v with
    | ptr t ih =>
      rw [store_ptr fold t v _ (by simp)]
      exact .inr ⟨_, rfl, ih _ (is_inner h)⟩
    | int s n =>
      simp only [store, peel, wrap, cur]
      cases hp : parseNum s n lit with
      | none => exact h
      | some i => exact ⟨i, rfl, parseNum_range s n lit i hp⟩
    | bool => exact h
    | str => exact h
    | list => exact h
    | map => exact h
    | struct => exact h
  | .str s, t, v, h => by
    induction t using ptr_induct generalizing v with
    | ptr t ih =>
      rw [store_ptr fold t v _ (by simp)]
      exact .inr ⟨_, rfl, ih _ (is_inner h)⟩
    | str => exact ⟨s, rfl⟩
    | int => exact h
    | bool => exact h
    | list => exact h
    | map => exact h
    | struct => exact h
  | .arr l, t, v, h => by
    have hL := storeL_is l
    induction t using ptr_induct generalizing v with
    | ptr t ih =>
      rw [store_ptr fold t v _ (by simp)]
      exact .inr ⟨_, rfl, ih _ (is_inner h)⟩
    | list u =>
      simp only [store, peel, wrap, cur]
      have hm : ∀ x ∈ (match (generalizing := false) v with | .list a b => a ++ b | _ => ([] : List V)), Is u x := by
        rcases h with rfl | ⟨a, b, rfl, h1, h2⟩
        · simp
        · intro x hx
          rcases List.mem_append.1 hx with hx | hx
          · exact h1 x hx
          · exact h2 x hx
      right
      split
      · exact ⟨[], [], rfl, by simp, by simp⟩
      · exact ⟨_, _, rfl, hL u _ hm, fun x hx => hm x (List.mem_of_mem_drop hx)⟩
    | str => exact h
    | int => exact h
    | bool => exact h
    | map => exact h
    | struct => exact h
  | .obj l, t, v, h => by
    have hM := storeM_is l
    have hF := storeF_is l
    induction t using ptr_induct generalizing v with
    | ptr t ih =>
      rw [store_ptr fold t v _ (by simp)]
      exact .inr ⟨_, rfl, ih _ (is_inner h)⟩
    | map u =>
      simp only [store, peel, wrap, cur]
      rcases h with rfl | ⟨m, rfl, h1, h2⟩
      · exact .inr ⟨_, rfl, hM u [] (by simp) (by simp)⟩
      · exact .inr ⟨_, rfl, hM u m h1 h2⟩
    | struct fs =>
      obtain ⟨a, rfl, ha⟩ := h
      simp only [store, peel, wrap, cur]
      exact ⟨_, rfl, (isF_iff fs _).2 (hF fs.toList a ((isF_iff fs a).1 ha))⟩
    | str => exact h
    | int => exact h
    | bool => exact h
    | list => exact h
termination_by structural j => j

theorem storeL_is : ∀ (l : List J) (t : T) (mem : List V), (∀ x ∈ mem, Is t x) → ∀ x ∈ (storeL fold t mem l).1, Is t x
  | [], t, mem, _ => by simp [storeL]
  | j :: l, t, mem, h => by
    have h0 : Is t (mem.headD (zero t)) := by
      cases mem with
      | nil => exact is_zero t
      | cons a mem => exact h a (by simp)
    have h1 := store_is j t _ h0
    have h2 := storeL_is l t mem.tail (fun x hx => h x (List.mem_of_mem_tail hx))
    intro x hx
    simp only [storeL, List.mem_cons] at hx
    rcases hx with rfl | hx
    · exact h1
    · exact h2 x hx
termination_by structural l => l

theorem storeM_is : ∀ (l : List (Bytes × J)) (t : T) (m : List (Bytes × V)), m.Pairwise (fun a b => a.1 < b.1) → (∀ e ∈ m, Is t e.2) →
    (storeM fold t m l).1.Pairwise (fun a b => a.1 < b.1) ∧ ∀ e ∈ (storeM fold t m l).1, Is t e.2
  | [], t, m, h1, h2 => by
    simp only [storeM]
    exact ⟨h1, h2⟩
  | (k, j) :: l, t, m, h1, h2 => by
    have h3 := store_is j t (zero t) (is_zero t)
    simp only [storeM]
    refine storeM_is l t _ (put_sorted _ _ _ h1) ?_
    intro e he
    rcases put_mem _ _ _ _ he with rfl | he
    · exact h3
    · exact h2 e he
termination_by structural l => l

theorem storeF_is : ∀ (l : List (Bytes × J)) (fs : List Field) (vs : List V), List.Forall₂ (fun (f : Field) v => Is f.t v) fs vs →
    List.Forall₂ (fun (f : Field) v => Is f.t v) fs (storeF fold fs vs l).1
  | [], fs, vs, h => by simpa [storeF] using h
  | (k, j) :: l, fs, vs, h => by
    have hj := store_is j
    rcases storeF_cons fold fs vs k j l h.length_eq.symm with ⟨_, h1⟩ | ⟨i, f, v, _, hf, hv, h1⟩
    · rw [h1]
      exact storeF_is l fs vs h
    · rw [h1]
      exact storeF_is l fs _ (forall₂_set h i f _ hf (hj f.t v (getElem?_of_forall₂ h i f v hf hv)))
termination_by structural l => l
end

/-! ## When there is no error -/

theorem items_mem {l : List J} {d : Bytes} (h : JItems l d) : ∀ j ∈ l, ∃ d, JDoc j d := by
  induction l generalizing d with
  | nil => simp
  | cons x l ih =>
    cases h with
    | one w w' d _ _ _ hx =>
      intro j hj
      simp only [List.mem_singleton] at hj
      subst hj
      exact ⟨d, hx⟩
    | more w w' d r _ y l _ _ hx hr =>
      intro j hj
      rcases List.mem_cons.1 hj with rfl | hj
      · exact ⟨d, hx⟩
      · exact ih hr j hj

theorem members_mem {l : List (Bytes × J)} {d : Bytes} (h : JMembers l d) : ∀ e ∈ l, ∃ d, JDoc e.2 d := by
  induction l generalizing d with
  | nil => simp
  | cons x l ih =>
    cases h with
    | one w w1 w2 w' q k d x _ _ _ _ _ hx =>
      intro j hj
      simp only [List.mem_singleton] at hj
      subst hj
      exact ⟨d, hx⟩
    | more w w1 w2 w' q k d r x y l _ _ _ _ _ hx hr =>
      intro j hj
      rcases List.mem_cons.1 hj with rfl | hj
      · exact ⟨d, hx⟩
      · exact ih hr j hj

theorem fits_ptr (t : T) (j : J) : Fits fold (.ptr t) j ↔ Fits fold t j := by
  constructor
  · intro h
    cases h with
    | null => exact .null t
    | ptr _ _ h => exact h
  · exact .ptr t j

mutual
theorem ok_iff : ∀ (j : J) (t : T) (v : V), Good t → Is t v → (∃ d, JDoc j d) → ((store fold t v j).2 = true ↔ Fits fold t j)
  | .null, t, v, _, _, _ => by
    simp only [store, true_iff]
    exact .null t
  | .bool b, t, v, hg, h, _ => by
    induction t using ptr_induct generalizing v with
    | ptr t ih =>
      rw [store_ptr fold t v _ (by simp), fits_ptr]
      exact ih _ hg (is_inner h)
    | bool => simp only [store, peel, true_iff]; exact .bool b
    | int => simp only [store, peel, Bool.false_eq_true, false_iff]; intro h; cases h
    | str => simp only [store, peel, Bool.false_eq_true, false_iff]; intro h; cases h
    | list => simp only [store, peel, Bool.false_eq_true, false_iff]; intro h; cases h
    | map => simp only [store, peel, Bool.false_eq_true, false_iff]; intro h; cases h
    | struct => simp only [store, peel, Bool.false_eq_true, false_iff]; intro h; cases h
  | .num lit, t, v, hg, h, hd => by
    have hlit : NumDoc lit := by
      obtain ⟨d, hd⟩ := hd
      cases hd
      assumption
    induction t using ptr_induct generalizing v with
    | ptr t ih =>
      rw [store_ptr fold t v _ (by simp), fits_ptr]
      exact ih _ hg (is_inner h)
    | int s n =>
      simp only [store, peel]
      cases hp : parseNum s n lit with
      | none =>
        simp only [Bool.false_eq_true, false_iff]
        intro hh
        cases hh with
        | int _ _ _ i h1 h2 =>
          rw [(parseNum_iff s n lit i hlit).2 ⟨h1, h2⟩] at hp
          simp at hp
      | some i =>
        simp only [true_iff]
        obtain ⟨h1, h2⟩ := (parseNum_iff s n lit i hlit).1 hp
        exact .int s n lit i h1 h2
    | bool => simp only [store, peel, Bool.false_eq_true, false_iff]; intro h; cases h
    | str => simp only [store, peel, Bool.false_eq_true, false_iff]; intro h; cases h
    | list => simp only [store, peel, Bool.false_eq_true, false_iff]; intro h; cases h
    | map => simp only [store, peel, Bool.false_eq_true, false_iff]; intro h; cases h
    | struct => simp only [store, peel, Bool.false_eq_true, false_iff]; intro h; cases h
  | .str s, t, v, hg, h, _ => by
    induction t using ptr_induct generalizing v with
    | ptr t ih =>
      rw [store_ptr fold t v _ (by simp), fits_ptr]
      exact ih _ hg (is_inner h)
    | str => simp only [store, peel, true_iff]; exact .str s
    | int => simp only [store, peel, Bool.false_eq_true, false_iff]; intro h; cases h
    | bool => simp only [store, peel, Bool.false_eq_true, false_iff]; intro h; cases h
    | list => simp only [store, peel, Bool.false_eq_true, false_iff]; intro h; cases h
    | map => simp only [store, peel, Bool.false_eq_true, false_iff]; intro h; cases h
    | struct => simp only [store, peel, Bool.false_eq_true, false_iff]; intro h; cases h
  | .arr l, t, v, hg, h, hd => by
    have hL := okL_iff l
    have hm : ∀ j ∈ l, ∃ d, JDoc j d := by
      obtain ⟨d, hd⟩ := hd
      cases hd
      exact items_mem (by assumption)
    induction t using ptr_induct generalizing v with
    | ptr t ih =>
      rw [store_ptr fold t v _ (by simp), fits_ptr]
      exact ih _ hg (is_inner h)
    | list u =>
      simp only [store, peel, cur]
      refine (hL u _ hg.1 ?_ hm).trans ⟨.list u l, fun h => by cases h; assumption⟩
      rcases h with rfl | ⟨a, b, rfl, h1, h2⟩
      · simp
      · intro x hx
        rcases List.mem_append.1 hx with hx | hx
        · exact h1 x hx
        · exact h2 x hx
    | str => simp only [store, peel, Bool.false_eq_true, false_iff]; intro h; cases h
    | int => simp only [store, peel, Bool.false_eq_true, false_iff]; intro h; cases h
    | bool => simp only [store, peel, Bool.false_eq_true, false_iff]; intro h; cases h
    | map => simp only [store, peel, Bool.false_eq_true, false_iff]; intro h; cases h
    | struct => simp only [store, peel, Bool.false_eq_true, false_iff]; intro h; cases h
  | .obj l, t, v, hg, h, hd => by
    have hM := okM_iff l
    have hF := okF_iff l
    have hm : ∀ e ∈ l, ∃ d, JDoc e.2 d := by
      obtain ⟨d, hd⟩ := hd
      cases hd
      exact members_mem (by assumption)
    induction t using ptr_induct generalizing v with
    | ptr t ih =>
      rw [store_ptr fold t v _ (by simp), fits_ptr]
      exact ih _ hg (is_inner h)
    | map u =>
      simp only [store, peel, cur]
      rw [hM u _ hg hm]
      exact ⟨.map u l, fun h => by cases h; assumption⟩
    | struct fs =>
      obtain ⟨a, rfl, ha⟩ := h
      simp only [store, peel, cur]
      rw [hF fs.toList a (fun f hf => (toList_good fs hg.2 f hf).2) ((isF_iff fs a).1 ha) hm]
      constructor
      · intro hh
        exact .struct fs l fun e he i f hi hf => hh e he i f ((find_iff fold hg.1 e.1 i).2 hi) hf
      · intro hh
        cases hh with
        | struct _ _ hh => exact fun e he i f hi hf => hh e he i f ((find_iff fold hg.1 e.1 i).1 hi) hf
    | str => simp only [store, peel, Bool.false_eq_true, false_iff]; intro h; cases h
    | int => simp only [store, peel, Bool.false_eq_true, false_iff]; intro h; cases h
    | bool => simp only [store, peel, Bool.false_eq_true, false_iff]; intro h; cases h
    | list => simp only [store, peel, Bool.false_eq_true, false_iff]; intro h; cases h
termination_by structural j => j

theorem okL_iff : ∀ (l : List J) (t : T) (mem : List V), Good t → (∀ x ∈ mem, Is t x) → (∀ j ∈ l, ∃ d, JDoc j d) →
    ((storeL fold t mem l).2 = true ↔ ∀ j ∈ l, Fits fold t j)
  | [], t, mem, _, _, _ => by simp [storeL]
  | j :: l, t, mem, hg, h, hd => by
    have h0 : Is t (mem.headD (zero t)) := by
      cases mem with
      | nil => exact is_zero t
      | cons a mem => exact h a (by simp)
    have h1 := ok_iff j t _ hg h0 (hd j (by simp))
    have h2 := okL_iff l t mem.tail hg (fun x hx => h x (List.mem_of_mem_tail hx)) (fun j hj => hd j (by simp [hj]))
    simp only [storeL, Bool.and_eq_true, List.forall_mem_cons]
    rw [h1, h2]
termination_by structural l => l

theorem okM_iff : ∀ (l : List (Bytes × J)) (t : T) (m : List (Bytes × V)), Good t → (∀ e ∈ l, ∃ d, JDoc e.2 d) →
    ((storeM fold t m l).2 = true ↔ ∀ e ∈ l, Fits fold t e.2)
  | [], t, m, _, _ => by simp [storeM]
  | (k, j) :: l, t, m, hg, hd => by
    have h1 := ok_iff j t (zero t) hg (is_zero t) (hd (k, j) (by simp))
    have h2 := okM_iff l t (put k (store fold t (zero t) j).1 m) hg (fun j hj => hd j (by simp [hj]))
    simp only [storeM, Bool.and_eq_true, List.forall_mem_cons]
    rw [h1, h2]
termination_by structural l => l

theorem okF_iff : ∀ (l : List (Bytes × J)) (fs : List Field) (vs : List V), (∀ f ∈ fs, Good f.t) → List.Forall₂ (fun (f : Field) v => Is f.t v) fs vs →
    (∀ e ∈ l, ∃ d, JDoc e.2 d) →
    ((storeF fold fs vs l).2 = true ↔ ∀ e ∈ l, ∀ (i : Nat) (f : Field), find fold e.1 fs = some i → fs[i]? = some f → Fits fold f.t e.2)
  | [], fs, vs, _, _, _ => by simp [storeF]
  | (k, j) :: l, fs, vs, hg, h, hd => by
    have hj := ok_iff j
    have hs := store_is fold j
    have h2 := fun vs hvs => okF_iff l fs vs hg hvs (fun j hj => hd j (by simp [hj]))
    rcases storeF_cons fold fs vs k j l h.length_eq.symm with ⟨h0, h1⟩ | ⟨i, f, v, h0, hf, hv, h1⟩
    · rw [h1, h2 vs h]
      simp only [List.forall_mem_cons, h0, reduceCtorEq, false_implies, implies_true, true_and]
    · have hi := getElem?_of_forall₂ h i f v hf hv
      have hgf := hg f (List.mem_of_getElem? hf)
      rw [h1]
      simp only [Bool.and_eq_true, List.forall_mem_cons]
      rw [h2 _ (forall₂_set h i f _ hf (hs f.t v hi)), hj f.t v hgf hi (hd (k, j) (by simp))]
      refine and_congr_left fun _ => ⟨fun hh i' f' hi' hf' => ?_, fun hh => hh i f h0 hf⟩
      rw [h0] at hi'
      simp only [Option.some.injEq] at hi'
      subst hi'
      rw [hf] at hf'
      simp only [Option.some.injEq] at hf'
      subst hf'
      exact hh
termination_by structural l => l
end

end Gofer.JsonStruct
