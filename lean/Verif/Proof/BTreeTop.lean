import Verif.Proof.BTreeRemove

/-! # The whole tree -/
namespace Gofer.BTree
open Gofer.TreeMap (Item Sorted treeGet treeDelete)
variable {K V : Type} [LinearOrder K]

/-- A root node that holds `s`. -/
def Root {T : Type} (d h : Nat) (n : Node T h) (s : List T) : Prop :=
  Inner (d - 1) (2 * d - 1) h n ∧ flat h n = s ∧ (items h n).length ≤ 2 * d - 1 ∧ (0 < h → 1 ≤ (items h n).length)

/-- The tree of degree `d` holds `s`. -/
def Good {T : Type} (d : Nat) (t : BT T) (s : List T) : Prop :=
  t.degree = d ∧ t.length = s.length ∧ (t.root = none → s = []) ∧ ∀ h n, t.root = some ⟨h, n⟩ → Root d h n s

theorem roi_length (s : List (Item K V)) (x : Item K V) :
    (TreeMap.replaceOrInsert s x).1.length = if (TreeMap.replaceOrInsert s x).2.isSome then s.length else s.length + 1 := by
  induction s with
  | nil => rfl
  | cons y ys ih =>
    simp only [TreeMap.replaceOrInsert]
    by_cases h1 : x.less y = true
    · simp [h1]
    · by_cases h2 : y.less x = true
      · simp only [h1, h2, if_true, Bool.false_eq_true, if_false, List.length_cons, ih]
        split <;> rfl
      · simp [h1, h2]

theorem del_length (s : List (Item K V)) (x : Item K V) :
    (treeDelete s x).length = if (treeGet s x).isSome then s.length - 1 else s.length := by
  induction s with
  | nil => rfl
  | cons y ys ih =>
    simp only [treeDelete, treeGet]
    by_cases h1 : x.less y = true
    · simp [h1]
    · by_cases h2 : y.less x = true
      · simp only [h1, h2, if_true, Bool.false_eq_true, if_false, List.length_cons, ih]
        cases hg : treeGet ys x with
        | none => simp
        | some i =>
          cases ys with
          | nil => simp [treeGet] at hg
          | cons z zs => simp
      · simp [h1, h2]

theorem get_pos {s : List (Item K V)} {x : Item K V} (h : (treeGet s x).isSome = true) : 1 ≤ s.length := by
  cases s with
  | nil => simp [treeGet] at h
  | cons _ _ => simp

/-- A root with room for one more item. -/
theorem room_spec {T : Type} {dg h : Nat} {n : Node T h} {s : List T} (hd : 2 ≤ dg) (hr : Root dg h n s) :
    ∃ (h' : Nat) (n' : Node T h'), room (dg * 2 - 1) h n = some ⟨h', n'⟩ ∧
      Inner (dg - 1) (2 * dg - 1) h' n' ∧ flat h' n' = s ∧ (items h' n').length < 2 * dg - 1 ∧
      (0 < h' → 1 ≤ (items h' n').length) := by
  obtain ⟨q1, q2, q3, q4⟩ := hr
  subst q2
  unfold room
  by_cases hfull : dg * 2 - 1 ≤ (items h n).length
  · rw [if_pos hfull]
    obtain ⟨a, m, b, p1, p2, p3, p4, p5, p6⟩ := split_spec (i := (dg * 2 - 1) / 2) q1 (by omega)
    refine ⟨h + 1, ([m], [a, b]), by rw [p1]; rfl, ⟨rfl, ?_⟩, ?_, ?_, ?_⟩
    · intro z hz
      simp only [List.mem_cons, List.not_mem_nil, or_false] at hz
      rcases hz with rfl | rfl
      · exact ⟨by omega, by omega, p5⟩
      · exact ⟨by omega, by omega, p6⟩
    · rw [p2]; simp [flat, weave, post]
    · show 1 < 2 * dg - 1
      omega
    · intro _; exact Nat.le_refl 1
  · rw [if_neg hfull]
    exact ⟨h, n, rfl, q1, rfl, by omega, q4⟩

theorem roi_top {d : Nat} (hd : 2 ≤ d) {t : BT (Item K V)} {s : List (Item K V)} (hg : Good d t s) (hs : Sorted s) (x : Item K V) :
    ∃ t', replaceOrInsert lt t x = some (t', (TreeMap.replaceOrInsert s x).2) ∧ Good d t' (TreeMap.replaceOrInsert s x).1 := by
  obtain ⟨dg, root, len⟩ := t
  obtain ⟨g1, g2, g3, g4⟩ := hg
  simp only at g1 g2 g3 g4
  subst g1 g2
  have hlen : ∀ o : Option (Item K V), o = (TreeMap.replaceOrInsert s x).2 →
      (if o.isSome then (s.length : Int) else s.length + 1) = ((TreeMap.replaceOrInsert s x).1.length : Int) := by
    rintro o rfl
    rw [roi_length]; split <;> simp
  cases root with
  | none =>
    have h0 := g3 rfl
    subst h0
    refine ⟨_, rfl, rfl, rfl, by simp, ?_⟩
    intro h n e
    have e' := Option.some.inj e
    cases e'
    refine ⟨trivial, rfl, ?_, by simp⟩
    show 1 ≤ 2 * dg - 1
    omega
  | some r =>
    obtain ⟨h, n⟩ := r
    obtain ⟨q1, q2, q3, q4⟩ := g4 h n rfl
    subst q2
    obtain ⟨h', n', r1, r2, r3, r4, r5⟩ := room_spec hd ⟨q1, rfl, q3, q4⟩
    rw [← r3] at hs hlen ⊢
    obtain ⟨n2, i1, i2, i3, i4, i5⟩ := insert_spec (mn := dg - 1) (mx := 2 * dg - 1) (by omega) (by omega) h' n' x r2 hs r4
    refine ⟨{ degree := dg, root := some ⟨h', n2⟩, length := if (TreeMap.replaceOrInsert (flat h' n') x).2.isSome then ((flat h' n').length : Int) else (flat h' n').length + 1 }, ?_, rfl, hlen _ rfl, by simp, ?_⟩
    · simp only [replaceOrInsert, BT.maxItems, r1, Option.bind_some]
      rw [show dg * 2 - 1 = 2 * dg - 1 by omega, i1]
      rfl
    · intro h'' n'' e
      simp only [Option.some.injEq, Sigma.mk.injEq] at e
      obtain ⟨rfl, e⟩ := e
      have e' := eq_of_heq e
      subst e'
      exact ⟨i3, i2, by omega, fun hp => by have := r5 hp; omega⟩

theorem get_top {d : Nat} {t : BT (Item K V)} {s : List (Item K V)} (hg : Good d t s) (hs : Sorted s) (x : Item K V) :
    get lt t x = some (treeGet s x) := by
  obtain ⟨dg, root, len⟩ := t
  obtain ⟨g1, g2, g3, g4⟩ := hg
  simp only at g1 g2 g3 g4
  cases root with
  | none => rw [g3 rfl]; rfl
  | some r =>
    obtain ⟨h, n⟩ := r
    obtain ⟨q1, q2, q3, q4⟩ := g4 h n rfl
    subst q2
    exact nodeGet_spec h n x q1 hs

theorem shrink_spec {T : Type} {dg h : Nat} {n' : Node T h} {s : List T} (hd : 2 ≤ dg) (p3 : Inner (dg - 1) (2 * dg - 1) h n')
    (p2 : flat h n' = s) (p5 : (items h n').length ≤ 2 * dg - 1) :
    ∃ (h2 : Nat) (n2 : Node T h2), shrink h n' = some ⟨h2, n2⟩ ∧ Root dg h2 n2 s := by
  cases h with
  | zero => exact ⟨0, n', rfl, p3, p2, by omega, by simp⟩
  | succ h =>
    obtain ⟨its, cs⟩ := n'
    obtain ⟨c1, c2⟩ := p3
    simp only [shrink]
    by_cases he : its.length = 0
    · obtain ⟨c, cs', rfl⟩ := first_split (s := cs) (by omega)
      have hits : its = [] := List.length_eq_zero_iff.1 he
      subst hits
      have hcs' : cs' = [] := by simpa using c1
      subst hcs'
      obtain ⟨k1, k2, k3⟩ := c2 c (by simp)
      refine ⟨h, c, by simp, k3, ?_, k2, fun _ => by omega⟩
      rw [← p2]; simp [flat, weave, post]
    · rw [if_neg (by tauto)]
      refine ⟨h + 1, (its, cs), rfl, ⟨c1, c2⟩, p2, ?_, ?_⟩
      · omega
      · intro _; show 1 ≤ its.length; omega

theorem del_top {d : Nat} (hd : 2 ≤ d) {t : BT (Item K V)} {s : List (Item K V)} (hg : Good d t s) (hs : Sorted s) (x : Item K V) :
    ∃ t', delete lt t x = some (t', treeGet s x) ∧ Good d t' (treeDelete s x) := by
  obtain ⟨dg, root, len⟩ := t
  have hg0 := hg
  obtain ⟨g1, g2, g3, g4⟩ := hg
  simp only at g1 g2 g3 g4
  subst g1 g2
  cases root with
  | none =>
    have h0 := g3 rfl
    subst h0
    exact ⟨_, rfl, hg0⟩
  | some r =>
    obtain ⟨h, n⟩ := r
    obtain ⟨q1, q2, q3, q4⟩ := g4 h n rfl
    subst q2
    by_cases h0 : (items h n).length = 0
    · have hz : h = 0 := by
        rcases Nat.eq_zero_or_pos h with h1 | h1
        · exact h1
        · have := q4 h1; omega
      subst hz
      have hf : flat 0 n = [] := List.length_eq_zero_iff.1 (show (flat 0 n).length = 0 from h0)
      refine ⟨{ degree := dg, root := some ⟨0, n⟩, length := (flat 0 n).length }, ?_, ?_⟩
      · simp only [delete, if_pos h0]
        rw [hf]; rfl
      · have : treeDelete (flat 0 n) x = flat 0 n := by rw [hf]; rfl
        rw [this]; exact hg0
    · obtain ⟨n', p1, p2, p3, p4, p5⟩ := removes (mn := dg - 1) (mx := 2 * dg - 1) (by omega) (by omega) h n (some x) q1 hs (by omega)
      simp only [taken] at p1 p2
      obtain ⟨h2, n2, s1, s2⟩ := shrink_spec hd p3 p2 (by omega)
      refine ⟨{ degree := dg, root := some ⟨h2, n2⟩, length := if (treeGet (flat h n) x).isSome then ((flat h n).length : Int) - 1 else (flat h n).length }, ?_, rfl, ?_, by simp, ?_⟩
      · simp only [delete, if_neg h0, BT.minItems, p1, s1]
        rfl
      · simp only [del_length]
        split
        · rename_i hs
          have := get_pos hs
          omega
        · rfl
      · intro h'' n'' e
        simp only [Option.some.injEq, Sigma.mk.injEq] at e
        obtain ⟨rfl, e⟩ := e
        have e' := eq_of_heq e
        subst e'
        exact s2

/-! ### Iteration -/

/-- The calls over a list, and whether to go on. -/
def show' {α T : Type} (f : List α → T → Bool) (out : T → α) : List T → List α → List α × Bool
  | [], seen => (seen, true)
  | x :: l, seen => if f seen x then show' f out l (seen ++ [out x]) else (seen ++ [out x], false)

theorem show_append {α T : Type} (f : List α → T → Bool) (out : T → α) (a b : List T) (seen : List α) :
    show' f out (a ++ b) seen =
      if (show' f out a seen).2 then show' f out b (show' f out a seen).1 else ((show' f out a seen).1, false) := by
  induction a generalizing seen with
  | nil => rfl
  | cons x a ih =>
    simp only [List.cons_append, show']
    split
    · exact ih _
    · rfl

theorem iter_leaf {α T : Type} (f : List α → T → Bool) (out : T → α) (its : List T) (seen : List α) :
    iterList (C := Unit) (fun _ s => (s, true)) f out its [] seen = show' f out its seen := by
  induction its generalizing seen with
  | nil => rfl
  | cons x its ih => simp only [iterList, show', ih]

theorem iter_inner {α T C : Type} (f : List α → T → Bool) (out : T → α) (inner : C → List α → List α × Bool) (fl : C → List T) :
    ∀ (its : List T) (cs : List C), (∀ c ∈ cs, ∀ s, inner c s = show' f out (fl c) s) → cs.length = its.length + 1 → ∀ seen,
    iterList inner f out its cs seen = show' f out (weave (cs.map fl) its) seen := by
  intro its
  induction its with
  | nil =>
    intro cs hi hl seen
    obtain ⟨c, cs', rfl⟩ := first_split (s := cs) (by omega)
    have : cs' = [] := by simpa using hl
    subst this
    simp only [iterList, List.map_cons, List.map_nil, weave, post, List.append_nil]
    exact hi c (by simp) seen
  | cons x its ih =>
    intro cs hi hl seen
    obtain ⟨c, cs', rfl⟩ := first_split (s := cs) (by omega)
    obtain ⟨c2, cs2, rfl⟩ := first_split (s := cs') (by simp at hl; omega)
    have e : weave ((c :: c2 :: cs2).map fl) (x :: its) = fl c ++ x :: weave ((c2 :: cs2).map fl) its := by
      simp [weave, post]
    rw [e, show_append, iterList, hi c (by simp) seen]
    have ih' := ih (c2 :: cs2) (fun c hc => hi c (List.mem_cons_of_mem _ hc)) (by simpa using hl)
    cases hw : show' f out (fl c) seen with
    | mk s b =>
      cases b with
      | false => rfl
      | true => simp only [if_true, show', ih']

theorem ascend_node {α T : Type} {mn mx : Nat} (f : List α → T → Bool) (out : T → α) (h : Nat) :
    ∀ (n : Node T h) seen, Inner mn mx h n → ascendNode f out h n seen = show' f out (flat h n) seen := by
  induction h with
  | zero => intro n seen _; exact iter_leaf f out n seen
  | succ h ih =>
    rintro ⟨its, cs⟩ seen ⟨h1, h2⟩
    exact iter_inner f out (ascendNode f out h) (flat h) its cs (fun c hc s => ih c s (h2 c hc).2.2) h1 seen

theorem weave_snoc {T : Type} {A : List (List T)} {B : List T} {c : List T} {i : T} (h : A.length = B.length + 1) :
    weave (A ++ [c]) (B ++ [i]) = weave A B ++ i :: c := by
  obtain ⟨p, q, rfl⟩ := last_split (s := A) (by omega)
  have hp : p.length = B.length := by simpa using h
  have e1 := weave_mid (cl := p) (c := q) (cr := [c]) (il := B) (ir := [i]) hp
  have e2 := weave_mid (cl := p) (c := q) (cr := []) (il := B) (ir := []) hp
  rw [List.append_nil] at e2
  rw [List.append_assoc, List.singleton_append, e1, e2]
  simp [post]

theorem weave_reverse {T : Type} {cs : List (List T)} {its : List T} (h : cs.length = its.length + 1) :
    (weave cs its).reverse = weave (cs.reverse.map List.reverse) its.reverse := by
  induction its generalizing cs with
  | nil =>
    obtain ⟨c, cs', rfl⟩ := first_split (s := cs) (by omega)
    have : cs' = [] := by simpa using h
    subst this
    simp [weave, post]
  | cons x its ih =>
    obtain ⟨c, cs', rfl⟩ := first_split (s := cs) (by omega)
    obtain ⟨c2, cs2, rfl⟩ := first_split (s := cs') (by simp at h; omega)
    have e : weave (c :: c2 :: cs2) (x :: its) = c ++ x :: weave (c2 :: cs2) its := by simp [weave, post]
    have ih' := ih (cs := c2 :: cs2) (by simpa using h)
    rw [e, List.reverse_append, List.reverse_cons, ih', List.reverse_cons (a := c), List.map_append, List.map_singleton,
      List.reverse_cons (a := x), weave_snoc (by simp at h ⊢; omega)]
    simp

theorem descend_node {α T : Type} {mn mx : Nat} (f : List α → T → Bool) (out : T → α) (h : Nat) :
    ∀ (n : Node T h) seen, Inner mn mx h n → descendNode f out h n seen = show' f out (flat h n).reverse seen := by
  induction h with
  | zero => intro n seen _; exact iter_leaf f out _ seen
  | succ h ih =>
    rintro ⟨its, cs⟩ seen ⟨h1, h2⟩
    have := iter_inner f out (descendNode f out h) (fun c => (flat h c).reverse) its.reverse cs.reverse
      (fun c hc s => ih c s (h2 c (List.mem_reverse.1 hc)).2.2) (by simpa using h1) seen
    refine this.trans ?_
    show _ = show' f out (weave (cs.map (flat h)) its).reverse seen
    rw [weave_reverse (by simpa using h1)]
    congr 2
    rw [← List.map_reverse, List.map_map]
    rfl

theorem ascend_top {α T : Type} {d : Nat} {t : BT T} {s : List T} (hg : Good d t s) (f : List α → T → Bool) (out : T → α) :
    ascend f out t = (show' f out s []).1 := by
  obtain ⟨dg, root, len⟩ := t
  obtain ⟨g1, g2, g3, g4⟩ := hg
  simp only at g1 g2 g3 g4
  cases root with
  | none => rw [g3 rfl]; rfl
  | some r =>
    obtain ⟨h, n⟩ := r
    obtain ⟨q1, q2, q3, q4⟩ := g4 h n rfl
    subst q2
    simp only [ascend, ascend_node f out h n [] q1]

theorem descend_top {α T : Type} {d : Nat} {t : BT T} {s : List T} (hg : Good d t s) (f : List α → T → Bool) (out : T → α) :
    descend f out t = (show' f out s.reverse []).1 := by
  obtain ⟨dg, root, len⟩ := t
  obtain ⟨g1, g2, g3, g4⟩ := hg
  simp only at g1 g2 g3 g4
  cases root with
  | none => rw [g3 rfl]; rfl
  | some r =>
    obtain ⟨h, n⟩ := r
    obtain ⟨q1, q2, q3, q4⟩ := g4 h n rfl
    subst q2
    simp only [descend, descend_node f out h n [] q1]

/-! ### Depth -/

theorem post_length {T : Type} {its : List T} {cs : List (List T)} (h : cs.length = its.length) :
    (post its cs).length = its.length + (cs.map List.length).sum := by
  induction its generalizing cs with
  | nil =>
    have : cs = [] := by simpa using h
    subst this; rfl
  | cons x its ih =>
    cases cs with
    | nil => simp at h
    | cons c cs =>
      simp only [post, List.length_cons, List.length_append, ih (by simpa using h), List.map_cons, List.sum_cons]
      omega

theorem flat_length {T : Type} {h : Nat} {its : List T} {cs : List (Node T h)} (hl : cs.length = its.length + 1) :
    (flat (h + 1) ((its, cs) : List T × List (Node T h))).length = its.length + (cs.map fun c => (flat h c).length).sum := by
  obtain ⟨c, cs, rfl⟩ := first_split (s := cs) (by omega)
  simp only [flat, List.map_cons, weave, List.length_append, List.sum_cons]
  rw [post_length (by simpa using hl), List.map_map]
  simp only [Function.comp_def]
  omega

theorem sum_ge {C : Type} {g : C → Nat} {cs : List C} {a : Nat} (h : ∀ c ∈ cs, a ≤ g c) : cs.length * a ≤ (cs.map g).sum := by
  induction cs with
  | nil => simp
  | cons c cs ih =>
    have h1 := h c (by simp)
    have h2 := ih fun c hc => h c (List.mem_cons_of_mem _ hc)
    simp only [List.length_cons, List.map_cons, List.sum_cons, Nat.add_mul, Nat.one_mul]
    omega

/-- A node below the root of height `h` holds at least `d ^ (h + 1) - 1` items. -/
theorem node_size {T : Type} {d mx : Nat} (h : Nat) : ∀ n : Node T h, Inner (d - 1) mx h n → 1 ≤ d → d - 1 ≤ (items h n).length →
    d ^ (h + 1) ≤ (flat h n).length + 1 := by
  induction h with
  | zero =>
    intro n _ hd hl
    have : d - 1 ≤ (flat 0 n).length := hl
    simp; omega
  | succ h ih =>
    rintro ⟨its, cs⟩ ⟨h1, h2⟩ hd hl
    have hl' : d - 1 ≤ its.length := hl
    rw [flat_length h1]
    have hs := sum_ge (g := fun c => (flat h c).length) (cs := cs) (a := d ^ (h + 1) - 1)
      (fun c hc => by have := ih c (h2 c hc).2.2 hd (h2 c hc).1; show _ ≤ (flat h c).length; omega)
    have hp : 1 ≤ d ^ (h + 1) := Nat.one_le_pow _ _ (by omega)
    have hm : d * (d ^ (h + 1) - 1) ≤ cs.length * (d ^ (h + 1) - 1) := Nat.mul_le_mul_right _ (by omega)
    have e1 : d ^ (h + 1 + 1) = d * d ^ (h + 1) := by rw [Nat.pow_succ, Nat.mul_comm]
    have e2 : d * (d ^ (h + 1) - 1) = d * d ^ (h + 1) - d := by rw [Nat.mul_sub, Nat.mul_one]
    have e3 : d ≤ d * d ^ (h + 1) := Nat.le_mul_of_pos_right _ hp
    omega

theorem depth_top {T : Type} {d : Nat} (hd : 2 ≤ d) {t : BT T} {s : List T} (hg : Good d t s) (h : Nat) (n : Node T h)
    (hr : t.root = some ⟨h, n⟩) (hpos : 0 < h) : 2 * d ^ h ≤ s.length + 1 := by
  obtain ⟨q1, q2, q3, q4⟩ := hg.2.2.2 h n hr
  subst q2
  cases h with
  | zero => omega
  | succ h =>
    obtain ⟨its, cs⟩ := n
    obtain ⟨h1, h2⟩ := q1
    have hl : 1 ≤ its.length := q4 hpos
    rw [flat_length h1]
    have hs := sum_ge (g := fun c => (flat h c).length) (cs := cs) (a := d ^ (h + 1) - 1)
      (fun c hc => by have := node_size h c (h2 c hc).2.2 (by omega) (h2 c hc).1; show _ ≤ (flat h c).length; omega)
    have hp : 1 ≤ d ^ (h + 1) := Nat.one_le_pow _ _ (by omega)
    have hm : 2 * (d ^ (h + 1) - 1) ≤ cs.length * (d ^ (h + 1) - 1) := Nat.mul_le_mul_right _ (by omega)
    omega

end Gofer.BTree
