import Verif.Proof.BTreeDel

/-! # `remove` of the B-tree removes -/
namespace Gofer.BTree
open Gofer.TreeMap (Item Sorted treeGet treeDelete)
variable {K V : Type} [LinearOrder K]

/-- What is left and what is taken out. -/
def taken (s : List (Item K V)) : Option (Item K V) → List (Item K V) × Option (Item K V)
  | none => (s.dropLast, s.getLast?)
  | some x => (treeDelete s x, treeGet s x)

/-- The child that `remove` goes to. -/
def place (its : List (Item K V)) : Option (Item K V) → Nat
  | none => its.length
  | some x => (find lt its x).1

/-- What `remove` does with the nodes of one height. -/
def Removes (mn mx h : Nat) (K V : Type) [LinearOrder K] : Prop :=
  ∀ (n : Node (Item K V) h) (typ : Option (Item K V)), Inner mn mx h n → Sorted (flat h n) → 1 ≤ (items h n).length →
    ∃ n', remove lt mn h n typ = some (n', (taken (flat h n) typ).2) ∧ flat h n' = (taken (flat h n) typ).1 ∧
      Inner mn mx h n' ∧ (items h n).length ≤ (items h n').length + 1 ∧ (items h n').length ≤ (items h n).length

theorem removes_leaf {mn mx : Nat} : Removes mn mx 0 K V := by
  intro n typ _ hs h1
  cases typ with
  | none =>
    obtain ⟨l, m, e⟩ := last_split (T := Item K V) (s := n) h1
    have e0 : (n : List (Item K V)) = l ++ [m] := e
    subst e0
    refine ⟨l, ?_, ?_, trivial, ?_, ?_⟩ <;> simp [remove, taken, flat, items]
  | some x =>
    have hs' : Sorted (K := K) (V := V) n := hs
    clear h1
    rcases find_cases hs' x with ⟨il, y, ir, e, hf, he, h1, h2⟩ | ⟨il, ir, e, hf, h1, h2⟩
    · have e0 : (n : List (Item K V)) = il ++ y :: ir := e
      subst e0
      have q1 := get_mid (A := il) (C := [y]) (B := ir) h1 h2
      have q2 := del_mid (A := il) (C := [y]) (B := ir) h1 h2
      rw [get_hit he] at q1
      rw [del_hit he] at q2
      simp only [List.singleton_append, List.nil_append] at q1 q2
      refine ⟨(il ++ ir : List (Item K V)), ?_, ?_, trivial, ?_, ?_⟩
      · simp only [remove, hf, taken, flat, q1, if_true]
        rw [get_at rfl, erase_mid rfl]; rfl
      · simp only [taken, flat, q2]
      · simp [items]; omega
      · simp [items]
    · have e0 : (n : List (Item K V)) = il ++ ir := e
      subst e0
      have q1 := get_mid (A := il) (C := []) (B := ir) h1 h2
      have q2 := del_mid (A := il) (C := []) (B := ir) h1 h2
      simp only [List.nil_append, treeGet, treeDelete] at q1 q2
      refine ⟨(il ++ ir : List (Item K V)), ?_, ?_, trivial, ?_, ?_⟩
      · simp only [remove, hf, taken, flat, q1]; rfl
      · simp only [taken, flat, q2]
      · simp [items]
      · simp [items]

theorem flat_ne {T : Type} {mn mx h : Nat} {n : Node T h} (hi : Inner mn mx h n) (h1 : 1 ≤ (items h n).length) : flat h n ≠ [] := by
  intro h0
  have := (items_sub hi).length_le
  rw [h0, List.length_nil] at this
  omega

/-- `remove` of an inner node whose child has enough items. -/
theorem pass {mn mx h : Nat} (hmn : 1 ≤ mn) (ih : Removes mn mx h K V) (fuel : Nat) {its : List (Item K V)} {cs : List (Node (Item K V) h)}
    (typ : Option (Item K V)) (hin : Inner mn mx (h + 1) (its, cs)) (hs : Sorted (flat (h + 1) (its, cs)))
    (hr : rich mn cs (place its typ) = true) :
    ∃ its' cs', removeIn lt mn (remove lt mn h) (fuel + 1) (its, cs) typ =
        some ((its', cs'), (taken (flat (h + 1) (its, cs)) typ).2) ∧
      flat (h + 1) (its', cs') = (taken (flat (h + 1) (its, cs)) typ).1 ∧ Inner mn mx (h + 1) (its', cs') ∧
      its'.length = its.length := by
  have hsi := sorted_items hin hs
  obtain ⟨hc, hch⟩ := hin
  obtain ⟨c, hcs, hlt⟩ := rich_iff.1 hr
  have hnle : ¬ (items h c).length ≤ mn := by omega
  cases typ with
  | none =>
    obtain ⟨cl, d, cr, rfl, hcl, hcr⟩ := split_children (cs := cs) (m := its.length) (n := 0) (by omega)
    have : cr = [] := by simpa using hcr
    subst this
    simp only [place] at hcs
    have hcs' := hcs
    rw [get_at hcl] at hcs'
    obtain rfl := Option.some.inj hcs'
    have kc := hch d (by simp)
    have ef := flat_mid (cl := cl) (c := d) (cr := []) (il := its) (ir := []) hcl
    simp only [List.append_nil, List.map_nil, post] at ef
    rw [ef] at hs ⊢
    obtain ⟨c', p1, p2, p3, p4, p5⟩ := ih d none kc.2.2 (List.pairwise_append.1 hs).2.1 (by omega)
    have hne := flat_ne kc.2.2 (by omega)
    have ef' := flat_mid (cl := cl) (c := c') (cr := []) (il := its) (ir := []) hcl
    simp only [List.append_nil, List.map_nil, post] at ef'
    refine ⟨its, cl ++ [c'], ?_, ?_, ⟨by simpa using hc, ?_⟩, rfl⟩
    · simp only [removeIn, target, hcs, if_neg hnle, p1, Option.map_some, set_mid hcl, taken]
      rw [List.getLast?_append]
      cases hg : (flat h d).getLast? with
      | none => exact absurd (List.getLast?_eq_none_iff.1 hg) hne
      | some _ => rfl
    · rw [ef', p2]
      simp only [taken]
      rw [List.dropLast_append_of_ne_nil hne]
    · intro z hz
      rcases List.mem_append.1 hz with hz | hz
      · exact hch z (by simp [hz])
      · rw [List.mem_singleton] at hz; subst hz; exact ⟨by omega, by omega, p3⟩
  | some x =>
    rcases find_cases hsi x with ⟨il, y, ir, e, hf, he, h1, h2⟩ | ⟨il, ir, e, hf, h1, h2⟩
    · have e0 : its = il ++ y :: ir := e
      subst e0
      have hf' : find lt (il ++ y :: ir) x = (il.length, true) := hf
      obtain ⟨cl, d, cr, rfl, hcl, hcr⟩ := split_children (cs := cs) (m := il.length) (n := ir.length + 1) (by simp at hc; omega)
      obtain ⟨k, cr, rfl⟩ := first_split (s := cr) (by omega)
      simp only [place, hf'] at hcs
      have hcs' := hcs
      rw [get_at hcl] at hcs'
      obtain rfl := Option.some.inj hcs'
      have kc := hch d (by simp)
      have ef : ∀ (d : Node (Item K V) h) (y : Item K V), flat (h + 1) ((il ++ y :: ir, cl ++ d :: k :: cr) : List (Item K V) × List (Node (Item K V) h)) =
          (pre (cl.map (flat h)) il ++ flat h d) ++ ([y] ++ (flat h k ++ post ir (cr.map (flat h)))) := by
        intro d y
        rw [flat_pair hcl]; simp
      have hs0 := hs
      rw [flat_pair hcl] at hs0
      rw [ef] at hs ⊢
      obtain ⟨c', p1, p2, p3, p4, p5⟩ := ih d none kc.2.2 (List.pairwise_append.1 (sorted_parts hs0).2.1).1 (by omega)
      have hne := flat_ne kc.2.2 (by omega)
      obtain ⟨L, m, hL⟩ := last_split (s := flat h d) (List.length_pos_iff.2 hne)
      rw [hL] at p1 p2
      have q1 := get_mid (x := x) (A := pre (cl.map (flat h)) il ++ flat h d) (C := [y]) (B := flat h k ++ post ir (cr.map (flat h)))
        (fun z hz => by have := (List.pairwise_append.1 hs).2.2 z hz y (by simp); rw [he] at this; exact this)
        (fun z hz => by have := (List.pairwise_cons.1 (List.pairwise_append.1 hs).2.1).1 z hz; rw [he] at this; exact this)
      have q2 := del_mid (x := x) (A := pre (cl.map (flat h)) il ++ flat h d) (C := [y]) (B := flat h k ++ post ir (cr.map (flat h)))
        (fun z hz => by have := (List.pairwise_append.1 hs).2.2 z hz y (by simp); rw [he] at this; exact this)
        (fun z hz => by have := (List.pairwise_cons.1 (List.pairwise_append.1 hs).2.1).1 z hz; rw [he] at this; exact this)
      rw [get_hit he] at q1
      rw [del_hit he] at q2
      refine ⟨il ++ m :: ir, cl ++ c' :: k :: cr, ?_, ?_, ⟨by simpa using hc, ?_⟩, by simp⟩
      · simp only [removeIn, target, hf', hcs, if_neg hnle, if_true, get_at rfl, p1, taken, set_mid hcl, set_mid rfl, q1]
        simp
      · rw [ef, p2]
        rw [hL] at q2
        simp only [taken, hL, q2]
        simp
      · intro z hz
        simp only [List.mem_append, List.mem_cons] at hz
        rcases hz with hz | rfl | hz
        · exact hch z (by simp [hz])
        · exact ⟨by omega, by omega, p3⟩
        · exact hch z (by simp [hz])
    · have e0 : its = il ++ ir := e
      subst e0
      have hf' : find lt (il ++ ir) x = (il.length, false) := hf
      obtain ⟨cl, d, cr, rfl, hcl, hcr⟩ := split_children (cs := cs) (m := il.length) (n := ir.length) (by simp at hc; omega)
      simp only [place, hf'] at hcs
      have hcs' := hcs
      rw [get_at hcl] at hcs'
      obtain rfl := Option.some.inj hcs'
      have kc := hch d (by simp)
      rw [flat_mid hcl] at hs ⊢
      obtain ⟨s1, s2, s3⟩ := sorted_parts hs
      obtain ⟨c', p1, p2, p3, p4, p5⟩ := ih d (some x) kc.2.2 s2 (by omega)
      have q1 := get_mid (C := flat h d) (pre_lt (by simpa using hcl) s1 h1) (post_gt s3 h2)
      have q2 := del_mid (C := flat h d) (pre_lt (by simpa using hcl) s1 h1) (post_gt s3 h2)
      refine ⟨il ++ ir, cl ++ c' :: cr, ?_, ?_, ⟨by simpa using hc, ?_⟩, rfl⟩
      · simp only [removeIn, target, hf', hcs, if_neg hnle, p1, Option.map_some, set_mid hcl, taken, q1]
        rfl
      · rw [flat_mid hcl, p2]
        simp only [taken, q2]
      · intro z hz
        simp only [List.mem_append, List.mem_cons] at hz
        rcases hz with hz | rfl | hz
        · exact hch z (by simp [hz])
        · exact ⟨by omega, by omega, p3⟩
        · exact hch z (by simp [hz])

theorem place_le {its : List (Item K V)} (hs : Sorted its) (typ : Option (Item K V)) : place its typ ≤ its.length := by
  cases typ with
  | none => exact Nat.le_refl _
  | some x =>
    rcases find_cases hs x with ⟨il, y, ir, e, hf, _⟩ | ⟨il, ir, e, hf, _⟩ <;>
    · simp only [place, hf]; rw [e]; simp

theorem removes_inner {mn mx h : Nat} (hmx : mx = 2 * mn + 1) (hmn : 1 ≤ mn) (ih : Removes mn mx h K V) : Removes mn mx (h + 1) K V := by
  rintro ⟨its, cs⟩ typ hin hs h1
  have h1' : 1 ≤ its.length := h1
  have hsi : Sorted its := sorted_items hin hs
  by_cases hr : rich mn cs (place its typ) = true
  · obtain ⟨its', cs', p1, p2, p3, p4⟩ := pass hmn ih (its.length + 1) typ hin hs hr
    exact ⟨(its', cs'), p1, p2, p3, by simp only [items]; omega, by simp only [items]; omega⟩
  · rw [Bool.not_eq_true] at hr
    obtain ⟨its', cs', g1, g2, g3, g4, g5, g6⟩ := grow_spec hmx hin hs (place_le hsi typ) h1' hr
    have hsi' : Sorted its' := sorted_items g2 (by rw [g3]; exact hs)
    have hr' : rich mn cs' (place its' typ) = true := by
      cases typ with
      | none =>
        rcases g6 with ⟨il, sep, st, ir, e1, e2, _, hi, hR⟩ | ⟨il, sep, st, ir, e1, e2, _, hi, hR⟩ | ⟨il, sep, ir, e1, e2, hi, hR⟩
        · subst e1 e2; simpa [place] using hR
        · subst e1 e2; simpa [place] using hR
        · subst e1 e2
          simp only [place, List.length_append, List.length_cons] at hi ⊢
          rcases hi with hi | ⟨_, rfl⟩
          · exact absurd hi (by omega)
          · simpa using hR
      | some x =>
        obtain ⟨il0, ir0, e0, f1, f2⟩ := split_at hsi x
        subst e0
        simp only [place, find_eq hsi f1 f2] at g6
        have key : ∀ A B, its' = A ++ B → (∀ y ∈ A, y.key < x.key) → (∀ y ∈ B, x.key ≤ y.key) → place its' (some x) = A.length := by
          intro A B e k1 k2
          subst e
          simp only [place, find_eq hsi' k1 k2]
        rcases g6 with ⟨il, sep, st, ir, e1, e2, hk, hi, hR⟩ | ⟨il, sep, st, ir, e1, e2, hk, hi, hR⟩ | ⟨il, sep, ir, e1, e2, hi, hR⟩
        · have e3 : il0 ++ ir0 = (il ++ [sep]) ++ ir := by rw [e1]; simp
          obtain ⟨rfl, rfl⟩ := List.append_inj e3 (by simp [hi])
          rw [key (il ++ [st]) ir0 (by rw [e2]; simp) (fun y hy => ?_) f2]
          · rw [List.length_append, List.length_singleton]; rw [hi] at hR; exact hR
          · rcases List.mem_append.1 hy with hy | hy
            · exact f1 y (by simp [hy])
            · rw [List.mem_singleton] at hy; subst hy; exact lt_trans hk (f1 sep (by simp))
        · obtain ⟨rfl, rfl⟩ := List.append_inj e1 hi
          rw [key il0 (st :: ir) e2 f1 (fun y hy => ?_)]
          · exact hR
          · rcases List.mem_cons.1 hy with rfl | hy
            · exact le_of_lt (lt_of_le_of_lt (f2 sep (by simp)) hk)
            · exact f2 y (by simp [hy])
        · rcases hi with hi | ⟨hi, rfl⟩
          · obtain ⟨rfl, rfl⟩ := List.append_inj e1 hi
            rw [key il0 ir e2 f1 (fun y hy => f2 y (by simp [hy]))]
            exact hR
          · obtain ⟨rfl, rfl⟩ := List.append_inj (e1.trans (List.append_nil (il ++ [sep])).symm) (by simp [hi])
            rw [key il [] e2 (fun y hy => f1 y (by simp [hy])) (by simp)]
            exact hR
    obtain ⟨its2, cs2, p1, p2, p3, p4⟩ := pass hmn ih its.length typ g2 (by rw [g3]; exact hs) hr'
    rw [g3] at p1 p2
    refine ⟨(its2, cs2), ?_, p2, p3, ?_, ?_⟩
    rotate_left
    · show its.length ≤ its2.length + 1; omega
    · show its2.length ≤ its.length; omega
    show removeIn lt mn (remove lt mn h) (its.length + 1 + 1) (its, cs) typ = _
    have hpl := place_le hsi typ
    obtain ⟨c, hget⟩ : ∃ c, cs[place its typ]? = some c :=
      ⟨_, List.getElem?_eq_getElem (by have := hin.1; omega)⟩
    have hle : (items h c).length ≤ mn := by
      by_contra hn
      have := (rich_iff (mn := mn)).2 ⟨c, hget, by omega⟩
      rw [hr] at this; cases this
    cases typ with
    | none =>
      simp only [place] at hget g1
      rw [removeIn]
      simp only [target, hget, if_pos hle, g1]
      exact p1
    | some x =>
      simp only [place] at hget g1
      rw [removeIn]
      simp only [target, hget, if_pos hle, g1]
      exact p1

theorem removes {mn mx : Nat} (hmx : mx = 2 * mn + 1) (hmn : 1 ≤ mn) (h : Nat) : Removes mn mx h K V := by
  induction h with
  | zero => exact removes_leaf
  | succ h ih => exact removes_inner hmx hmn ih

end Gofer.BTree
