import Verif.Proof.BTreeMap

/-! # An item that is not comparable with any other (a NaN key) -/
namespace Gofer.BTree
open Gofer.TreeMap (Item Sorted)

/-- `x` is neither below nor above anything. -/
def Unordered {T : Type} (less : T → T → Bool) (x : T) : Prop := ∀ y, less x y = false ∧ less y x = false

theorem search_end {f : Nat → Bool} (n : Nat) : ∀ i j, j - i ≤ n → i ≤ j → (∀ k, k < j → f k = false) → search f n i j = j := by
  induction n with
  | zero => intro i j h1 h2 _; simp only [search]; omega
  | succ n ih =>
    intro i j h1 h2 h3
    simp only [search]
    split
    · rw [if_neg (by rw [h3 _ (by omega)]; simp)]
      exact ih _ _ (by omega) (by omega) h3
    · omega

theorem find_nil {T : Type} {less : T → T → Bool} {x : T} : find less [] x = (0, false) := by
  simp [find, search]

theorem find_snoc {T : Type} {less : T → T → Bool} {x : T} (hx : Unordered less x) (l : List T) (y : T) :
    find less (l ++ [y]) x = (l.length, true) := by
  have hs : search (above less (l ++ [y]) x) (l ++ [y]).length 0 (l ++ [y]).length = (l ++ [y]).length := by
    apply search_end
    · omega
    · omega
    · intro k hk
      unfold above
      rw [List.getElem?_eq_getElem hk]
      exact (hx _).1
  unfold find
  rw [hs]
  simp only [List.length_append, List.length_singleton, Nat.add_sub_cancel]
  rw [if_pos]
  refine ⟨by omega, ?_⟩
  unfold notBelow
  rw [get_at rfl]
  simp [(hx y).2]

theorem nodeGet_nan {T : Type} {less : T → T → Bool} {x : T} (hx : Unordered less x) {mn mx h : Nat} {n : Node T h} (hi : Inner mn mx h n)
    (h1 : 1 ≤ (items h n).length) : ∃ y ∈ flat h n, nodeGet less h n x = some (some y) := by
  cases h with
  | zero =>
    obtain ⟨l, y, e⟩ := last_split (T := T) (s := n) h1
    have e0 : (n : List T) = l ++ [y] := e
    subst e0
    refine ⟨y, by simp [flat], ?_⟩
    simp only [nodeGet, find_snoc hx, if_true]
    rw [get_at rfl]; rfl
  | succ h =>
    have hi0 := hi
    obtain ⟨its, cs⟩ := n
    obtain ⟨l, y, rfl⟩ := last_split (T := T) (s := its) h1
    refine ⟨y, (items_sub hi0).subset (by simp [items]), ?_⟩
    simp only [nodeGet, find_snoc hx, if_true]
    rw [get_at rfl]; rfl

theorem insert_nan {T : Type} {less : T → T → Bool} {x : T} (hx : Unordered less x) {mn mx h : Nat} {n : Node T h} (hi : Inner mn mx h n)
    (h1 : 1 ≤ (items h n).length) : ∃ A y B n', flat h n = A ++ y :: B ∧ insert less mx h n x = some (n', some y) ∧
      flat h n' = A ++ x :: B ∧ Inner mn mx h n' ∧ (items h n').length = (items h n).length := by
  cases h with
  | zero =>
    obtain ⟨l, y, e⟩ := last_split (T := T) (s := n) h1
    have e0 : (n : List T) = l ++ [y] := e
    subst e0
    refine ⟨l, y, [], (l ++ [x] : List T), rfl, ?_, rfl, trivial, by simp [items]⟩
    simp only [insert, find_snoc hx, if_true]
    rw [get_at rfl, set_mid rfl]; rfl
  | succ h =>
    obtain ⟨its, cs⟩ := n
    obtain ⟨l, y, rfl⟩ := last_split (T := T) (s := its) h1
    obtain ⟨c1, c2⟩ := hi
    obtain ⟨cl, c, cr, rfl, hcl, hcr⟩ := split_children (cs := cs) (m := l.length) (n := 1) (by simp at c1; omega)
    obtain ⟨k, cr, rfl⟩ := first_split (s := cr) (by omega)
    have ef : ∀ y : T, flat (h + 1) ((l ++ [y], cl ++ c :: k :: cr) : List T × List (Node T h)) =
        (pre (cl.map (flat h)) l ++ flat h c) ++ y :: (flat h k ++ post [] (cr.map (flat h))) := by
      intro y
      rw [flat_pair hcl]; simp
    refine ⟨_, y, _, (l ++ [x], cl ++ c :: k :: cr), ef y, ?_, ef x, ⟨by simpa using c1, c2⟩, by simp [items]⟩
    simp only [insert, find_snoc hx, if_true]
    rw [get_at rfl, set_mid rfl]; rfl

theorem items_pos {T : Type} {d h : Nat} {n : Node T h} {s : List T} (hr : Root d h n s) (hne : s ≠ []) : 1 ≤ (items h n).length := by
  obtain ⟨q1, q2, q3, q4⟩ := hr
  cases h with
  | zero =>
    subst q2
    exact List.length_pos_iff.2 hne
  | succ h => exact q4 (by omega)

theorem get_nan {T : Type} {less : T → T → Bool} {x : T} (hx : Unordered less x) {d : Nat} {t : BT T} {s : List T} (hg : Good d t s)
    (hne : s ≠ []) : ∃ y ∈ s, get less t x = some (some y) := by
  obtain ⟨dg, root, len⟩ := t
  obtain ⟨g1, g2, g3, g4⟩ := hg
  simp only at g1 g2 g3 g4
  cases root with
  | none => exact absurd (g3 rfl) hne
  | some r =>
    obtain ⟨h, n⟩ := r
    have hr := g4 h n rfl
    have h1 := items_pos hr hne
    obtain ⟨q1, rfl, q3, q4⟩ := hr
    exact nodeGet_nan hx q1 h1

theorem roi_nan {T : Type} {less : T → T → Bool} {x : T} (hx : Unordered less x) {d : Nat} (hd : 2 ≤ d) {t : BT T} {s : List T} (hg : Good d t s)
    (hne : s ≠ []) : ∃ A y B t', s = A ++ y :: B ∧ replaceOrInsert less t x = some (t', some y) ∧ Good d t' (A ++ x :: B) := by
  obtain ⟨dg, root, len⟩ := t
  obtain ⟨g1, g2, g3, g4⟩ := hg
  simp only at g1 g2 g3 g4
  subst g1
  cases root with
  | none => exact absurd (g3 rfl) hne
  | some r =>
    obtain ⟨h, n⟩ := r
    obtain ⟨h', n', r1, r2, r3, r4, r5⟩ := room_spec hd (g4 h n rfl)
    have h1 := items_pos ⟨r2, r3, by omega, r5⟩ hne
    obtain ⟨A, y, B, n2, e1, e2, e3, e4, e5⟩ := insert_nan hx r2 h1
    subst r3
    refine ⟨A, y, B, { degree := dg, root := some ⟨h', n2⟩, length := len }, e1, ?_, rfl, ?_, by simp, ?_⟩
    · simp only [replaceOrInsert, BT.maxItems, r1, Option.bind_some]
      rw [show dg * 2 - 1 = 2 * dg - 1 by omega, e2]
      rfl
    · rw [e1] at g2; simpa using g2
    · intro h'' n'' e
      have e' := Option.some.inj e
      cases e'
      exact ⟨e4, e3, by omega, fun hp => by have := r5 hp; omega⟩

variable {K V : Type} [LinearOrder K]

/-- `remove` of the largest item never compares. -/
theorem removeMax_less {T : Type} (f g : T → T → Bool) (mn h : Nat) : ∀ n : Node T h, remove f mn h n none = remove g mn h n none := by
  induction h with
  | zero => intro n; rfl
  | succ h ih =>
    have loop : ∀ fuel (n : List T × List (Node T h)),
        removeIn f mn (remove f mn h) fuel n none = removeIn g mn (remove g mn h) fuel n none := by
      intro fuel
      induction fuel with
      | zero => intro n; rfl
      | succ fuel ihf =>
        rintro ⟨its, cs⟩
        simp only [removeIn, target, ih, ihf]
        cases cs[its.length]? with
        | none => rfl
        | some c =>
          simp only
          cases grow mn its cs its.length <;> rfl
    intro n
    exact loop _ n

/-- Stealing keeps the number of items. -/
theorem grow_steal {T : Type} {mn h : Nat} {its its' : List T} {cs cs' : List (Node T h)} {i : Nat}
    (hg : grow mn its cs i = some (its', cs')) (hi : i < its.length) (hr : rich mn cs (i + 1) = true) : its'.length = its.length := by
  unfold grow at hg
  by_cases h1 : 0 < i ∧ rich mn cs (i - 1) = true
  · rw [if_pos h1] at hg
    split at hg
    · obtain ⟨r, _, e⟩ := Option.map_eq_some_iff.1 hg
      rw [← (Prod.mk.inj e).1]; simp
    · cases hg
  · rw [if_neg h1, if_pos ⟨hi, hr⟩] at hg
    split at hg
    · obtain ⟨r, _, e⟩ := Option.map_eq_some_iff.1 hg
      rw [← (Prod.mk.inj e).1]; simp
    · cases hg

/-- What `remove` does with an unordered item. -/
def TakesSome (less : Item K V → Item K V → Bool) (x : Item K V) (mn mx h : Nat) (n : Node (Item K V) h) : Prop :=
  ∃ A y B n', flat h n = A ++ y :: B ∧ remove less mn h n (some x) = some (n', some y) ∧ flat h n' = A ++ B ∧ Inner mn mx h n' ∧
      (items h n).length ≤ (items h n').length + 1 ∧ (items h n').length ≤ (items h n).length

/-- One pass of `remove` of an inner node, when the child it goes to is large enough. -/
theorem nan_pass {less : Item K V → Item K V → Bool} {x : Item K V} (hx : Unordered less x) {mn mx : Nat} (hmx : mx = 2 * mn + 1)
    (hmn : 1 ≤ mn) {h : Nat}
    (ih : ∀ n : Node (Item K V) h, Inner mn mx h n → Sorted (flat h n) → 1 ≤ (items h n).length → TakesSome less x mn mx h n)
    (fuel : Nat) {its : List (Item K V)} {cs : List (Node (Item K V) h)} (hin : Inner mn mx (h + 1) (its, cs))
    (hs : Sorted (flat (h + 1) (its, cs))) (hr : rich mn cs (its.length - 1) = true) :
    ∃ A y B its' cs', flat (h + 1) (its, cs) = A ++ y :: B ∧
      removeIn less mn (remove less mn h) (fuel + 1) (its, cs) (some x) = some ((its', cs'), some y) ∧
      flat (h + 1) (its', cs') = A ++ B ∧ Inner mn mx (h + 1) (its', cs') ∧ its'.length = its.length := by
  obtain ⟨hc, hch⟩ := hin
  obtain ⟨c, hcs, hlt⟩ := rich_iff.1 hr
  have hnle : ¬ (items h c).length ≤ mn := by omega
  rcases List.eq_nil_or_concat its with rfl | ⟨l, y, rfl⟩
  · obtain ⟨d, cs', rfl⟩ := first_split (s := cs) (by omega)
    have : cs' = [] := by simpa using hc
    subst this
    have hcd : d = c := by simpa using hcs
    subst hcd
    have ef : ∀ d : Node (Item K V) h, flat (h + 1) (([], [d]) : List (Item K V) × List (Node (Item K V) h)) = flat h d := by
      intro d; simp [flat, weave, post]
    have kc := hch d (by simp)
    rw [ef] at hs
    obtain ⟨A, y, B, n', e1, e2, e3, e4, e5, e6⟩ := ih d kc.2.2 hs (by omega)
    refine ⟨A, y, B, [], [n'], by rw [ef, e1], ?_, by rw [ef, e3], ⟨rfl, ?_⟩, rfl⟩
    · simp only [removeIn, target, find_nil, List.getElem?_cons_zero, if_neg hnle, e2]
      rfl
    · intro z hz
      rw [List.mem_singleton] at hz; subst hz; exact ⟨by omega, by omega, e4⟩
  · have hl : (l ++ [y]).length - 1 = l.length := by simp
    rw [List.concat_eq_append] at *
    rw [hl] at hcs
    obtain ⟨cl, d, cr, rfl, hcl, hcr⟩ := split_children (cs := cs) (m := l.length) (n := 1) (by simp at hc; omega)
    obtain ⟨k, cr, rfl⟩ := first_split (s := cr) (by omega)
    have hcs' := hcs
    rw [get_at hcl] at hcs'
    obtain rfl := Option.some.inj hcs'
    have kc := hch d (by simp)
    have ef : ∀ (d : Node (Item K V) h) (y : Item K V), flat (h + 1) ((l ++ [y], cl ++ d :: k :: cr) : List (Item K V) × List (Node (Item K V) h)) =
        (pre (cl.map (flat h)) l ++ flat h d) ++ y :: (flat h k ++ post [] (cr.map (flat h))) := by
      intro d y
      rw [flat_pair hcl]; simp
    have hs0 := hs
    rw [flat_pair hcl] at hs0
    obtain ⟨c', p1, p2, p3, p4, p5⟩ := removes (mx := mx) hmx hmn h d none kc.2.2 (List.pairwise_append.1 (sorted_parts hs0).2.1).1 (by omega)
    have hne := flat_ne kc.2.2 (by omega)
    obtain ⟨L, m, hL⟩ := last_split (s := flat h d) (List.length_pos_iff.2 hne)
    rw [hL] at p1 p2
    rw [← removeMax_less less] at p1
    refine ⟨_, y, _, l ++ [m], cl ++ c' :: k :: cr, ef d y, ?_, ?_, ⟨by simpa using hc, ?_⟩, by simp⟩
    · simp only [removeIn, target, find_snoc hx, hcs, if_neg hnle, if_true, get_at rfl, p1, taken, set_mid hcl, set_mid rfl]
      simp
    · rw [ef, p2, hL]
      simp [taken]
    · intro z hz
      simp only [List.mem_append, List.mem_cons] at hz
      rcases hz with hz | rfl | hz
      · exact hch z (by simp [hz])
      · exact ⟨by omega, by omega, p3⟩
      · exact hch z (by simp [hz])

theorem nan_target {less : Item K V → Item K V → Bool} {x : Item K V} (hx : Unordered less x) {its : List (Item K V)}
    (h1 : 1 ≤ its.length) : target less its (some x) = (its.length - 1, true) := by
  obtain ⟨l, y, rfl⟩ := last_split h1
  simp only [target, find_snoc hx]
  simp

/-- One call of `remove` that has to grow the child first. -/
theorem nan_grow {less : Item K V → Item K V → Bool} {x : Item K V} (hx : Unordered less x) {mn h : Nat}
    {rec : Node (Item K V) h → Option (Item K V) → Option (Node (Item K V) h × Option (Item K V))} {fuel : Nat}
    {its its' : List (Item K V)} {cs cs' : List (Node (Item K V) h)} (h1 : 1 ≤ its.length) (hlen : its.length - 1 < cs.length)
    (hr : rich mn cs (its.length - 1) = false) (hg : grow mn its cs (its.length - 1) = some (its', cs')) :
    removeIn less mn rec (fuel + 1) (its, cs) (some x) = removeIn less mn rec fuel (its', cs') (some x) := by
  obtain ⟨c, hc⟩ : ∃ c, cs[its.length - 1]? = some c := ⟨_, List.getElem?_eq_getElem hlen⟩
  have hle : (items h c).length ≤ mn := by
    by_contra hn
    have := (rich_iff (mn := mn)).2 ⟨c, hc, by omega⟩
    rw [hr] at this; cases this
  rw [removeIn]
  simp only [nan_target hx h1, hc, if_pos hle, hg]

/-- `remove` of an unordered item takes out some other item. -/
theorem remove_nan {less : Item K V → Item K V → Bool} {x : Item K V} (hx : Unordered less x) {mn mx : Nat} (hmx : mx = 2 * mn + 1)
    (hmn : 1 ≤ mn) (h : Nat) : ∀ n : Node (Item K V) h, Inner mn mx h n → Sorted (flat h n) → 1 ≤ (items h n).length →
    TakesSome less x mn mx h n := by
  induction h with
  | zero =>
    intro n _ _ h1
    obtain ⟨l, y, e⟩ := last_split (T := Item K V) (s := n) h1
    have e0 : (n : List (Item K V)) = l ++ [y] := e
    subst e0
    refine ⟨l, y, [], (l : List (Item K V)), rfl, ?_, by simp [flat], trivial, by simp [items], by simp [items]⟩
    simp only [remove, find_snoc hx, if_true]
    rw [get_at rfl, erase_mid rfl]
    simp
  | succ h ih =>
    -- the child is small but the last child is not: an item is stolen
    have stage2 : ∀ fuel (its : List (Item K V)) (cs : List (Node (Item K V) h)), Inner mn mx (h + 1) (its, cs) →
        Sorted (flat (h + 1) (its, cs)) → rich mn cs its.length = true →
        ∃ A y B its' cs', flat (h + 1) (its, cs) = A ++ y :: B ∧
          removeIn less mn (remove less mn h) (fuel + 1 + 1) (its, cs) (some x) = some ((its', cs'), some y) ∧
          flat (h + 1) (its', cs') = A ++ B ∧ Inner mn mx (h + 1) (its', cs') ∧ its'.length = its.length := by
      intro fuel its cs hin hs hlast
      by_cases hr : rich mn cs (its.length - 1) = true
      · exact nan_pass hx hmx hmn ih (fuel + 1) hin hs hr
      · have h1 : 1 ≤ its.length := by
          rcases Nat.eq_zero_or_pos its.length with h0 | h0
          · rw [h0] at hr hlast; exact absurd hlast hr
          · exact h0
        rw [Bool.not_eq_true] at hr
        obtain ⟨its', cs', g1, g2, g3, g4, g5, g6⟩ := grow_spec hmx hin hs (i := its.length - 1) (by omega) h1 hr
        have hl := grow_steal g1 (by omega) (by rw [Nat.sub_add_cancel h1]; exact hlast)
        rw [nan_grow hx h1 (by have := hin.1; omega) hr g1, ← g3, ← hl]
        refine nan_pass hx hmx hmn ih fuel g2 (by rw [g3]; exact hs) ?_
        rw [hl]
        rcases g6 with ⟨il, sep, st, ir, e1, e2, _, hi, hR⟩ | ⟨il, sep, st, ir, e1, e2, _, hi, hR⟩ | ⟨il, sep, ir, e1, e2, hi, hR⟩
        · exact hR
        · exact hR
        · rw [e1, e2] at hl
          simp at hl
    rintro ⟨its, cs⟩ hin hs h1
    have h1' : 1 ≤ its.length := h1
    by_cases hr : rich mn cs (its.length - 1) = true
    · obtain ⟨A, y, B, its', cs', e1, e2, e3, e4, e5⟩ := nan_pass hx hmx hmn ih (its.length + 1) hin hs hr
      exact ⟨A, y, B, (its', cs'), e1, e2, e3, e4, by show its.length ≤ its'.length + 1; omega, by show its'.length ≤ its.length; omega⟩
    · rw [Bool.not_eq_true] at hr
      obtain ⟨its', cs', g1, g2, g3, g4, g5, g6⟩ := grow_spec hmx hin hs (i := its.length - 1) (by omega) h1' hr
      have hstep := nan_grow (rec := remove less mn h) (fuel := its.length + 1) hx h1' (by have := hin.1; omega) hr g1
      have done : ∃ A y B its2 cs2, flat (h + 1) (its', cs') = A ++ y :: B ∧
          removeIn less mn (remove less mn h) (its.length + 1) (its', cs') (some x) = some ((its2, cs2), some y) ∧
          flat (h + 1) (its2, cs2) = A ++ B ∧ Inner mn mx (h + 1) (its2, cs2) ∧ its2.length = its'.length := by
        have hs' : Sorted (flat (h + 1) (its', cs')) := by rw [g3]; exact hs
        rcases g6 with ⟨il, sep, st, ir, e1, e2, _, hi, hR⟩ | ⟨il, sep, st, ir, e1, e2, _, hi, hR⟩ | ⟨il, sep, ir, e1, e2, hi, hR⟩
        · have hl : its'.length = its.length := by rw [e1, e2]; simp
          exact nan_pass hx hmx hmn ih its.length g2 hs' (by rw [hl]; exact hR)
        · have hl : its'.length = its.length := by rw [e1, e2]; simp
          exact nan_pass hx hmx hmn ih its.length g2 hs' (by rw [hl]; exact hR)
        · have hir : ir = [] := by
            rcases hi with hi | hi
            · have := congrArg List.length e1
              simp only [List.length_append, List.length_cons] at this
              exact List.length_eq_zero_iff.1 (by omega)
            · exact hi.2
          subst hir
          have hl : its'.length = il.length := by rw [e2]; simp
          have hl2 : its.length = il.length + 1 := by rw [e1]; simp
          have := stage2 il.length its' cs' g2 hs' (by rw [hl]; exact hR)
          rw [hl2]; exact this
      obtain ⟨A, y, B, its2, cs2, e1, e2, e3, e4, e5⟩ := done
      rw [g3] at e1
      refine ⟨A, y, B, (its2, cs2), e1, ?_, e3, e4, by show its.length ≤ its2.length + 1; omega, by show its2.length ≤ its.length; omega⟩
      exact hstep.trans e2

theorem del_nan {less : Item K V → Item K V → Bool} {x : Item K V} (hx : Unordered less x) {d : Nat} (hd : 2 ≤ d) {t : BT (Item K V)}
    {s : List (Item K V)} (hg : Good d t s) (hs : Sorted s) (hne : s ≠ []) :
    ∃ A y B t', s = A ++ y :: B ∧ delete less t x = some (t', some y) ∧ Good d t' (A ++ B) := by
  obtain ⟨dg, root, len⟩ := t
  obtain ⟨g1, g2, g3, g4⟩ := hg
  simp only at g1 g2 g3 g4
  subst g1 g2
  cases root with
  | none => exact absurd (g3 rfl) hne
  | some r =>
    obtain ⟨h, n⟩ := r
    have hr := g4 h n rfl
    have h1 := items_pos hr hne
    obtain ⟨q1, q2, q3, q4⟩ := hr
    subst q2
    obtain ⟨A, y, B, n', e1, e2, e3, e4, e5, e6⟩ := remove_nan hx (mn := dg - 1) (mx := 2 * dg - 1) (by omega) (by omega) h n q1 hs h1
    obtain ⟨h2, n2, s1, s2⟩ := shrink_spec hd e4 e3 (by omega)
    refine ⟨A, y, B, { degree := dg, root := some ⟨h2, n2⟩, length := ((flat h n).length : Int) - 1 }, e1, ?_, rfl, ?_, by simp, ?_⟩
    · have h0 : ¬ (items h n).length = 0 := by omega
      simp only [delete, if_neg h0, BT.minItems, e2, s1]
      rfl
    · simp only [e1, List.length_append, List.length_cons]
      omega
    · intro h'' n'' e
      have e' := Option.some.inj e
      cases e'
      exact s2

end Gofer.BTree
