import Verif.Model.BTree
import Verif.Proof.TreeMap

/-! # The B-tree keeps the items in order -/
namespace Gofer.BTree
open Gofer.TreeMap (Item Sorted treeGet treeDelete)
variable {K V : Type} [LinearOrder K]

/-- The comparison of the library for these items. -/
abbrev lt (a b : Item K V) : Bool := Item.less a b

/-! ### Binary search -/

theorem search_spec {f : Nat → Bool} (mono : ∀ a b, a ≤ b → f a = true → f b = true) (n : Nat) :
    ∀ i j, j - i ≤ n → i ≤ j → (∀ k, k < i → f k = false) → (∀ k, j ≤ k → f k = true) →
      (∀ k, k < search f n i j → f k = false) ∧ (∀ k, search f n i j ≤ k → f k = true) := by
  induction n with
  | zero =>
    intro i j h1 h2 h3 h4
    have : i = j := by omega
    subst this
    exact ⟨h3, h4⟩
  | succ n ih =>
    intro i j h1 h2 h3 h4
    rw [search]
    split
    · rename_i hij
      dsimp only
      split
      · rename_i hf
        exact ih i ((i + j) / 2) (by omega) (by omega) h3 (fun k hk => mono _ _ hk hf)
      · rename_i hf
        refine ih ((i + j) / 2 + 1) j (by omega) (by omega) ?_ h4
        intro k hk
        cases hk' : f k with
        | false => rfl
        | true => exact absurd (mono k _ (by omega) hk') hf
    · have : i = j := by omega
      subst this
      exact ⟨h3, h4⟩

/-- The first of the items has the key of `x`. -/
def headIs (x : Item K V) : List (Item K V) → Bool
  | [] => false
  | y :: _ => decide (y.key = x.key)

/-- `find` in sorted items: everything before the place is smaller, everything from it on is not. -/
theorem find_eq {il ir : List (Item K V)} {x : Item K V} (hs : Sorted (il ++ ir))
    (h1 : ∀ y ∈ il, y.key < x.key) (h2 : ∀ y ∈ ir, x.key ≤ y.key) :
    find lt (il ++ ir) x = (il.length, headIs x ir) := by
  have key : ∀ k, above lt (il ++ ir) x k = true ↔
      (il.length ≤ k ∧ ∀ y, (il ++ ir)[k]? = some y → x.key < y.key) := by
    intro k
    unfold above
    cases hk : (il ++ ir)[k]? with
    | none =>
      have : (il ++ ir).length ≤ k := List.getElem?_eq_none_iff.1 hk
      rw [List.length_append] at this
      simp; omega
    | some y =>
      have hlt : lt x y = decide (x.key < y.key) := rfl
      simp only [hlt, decide_eq_true_eq, Option.some.injEq]
      constructor
      · intro h
        refine ⟨?_, fun z hz => hz ▸ h⟩
        apply Nat.le_of_not_lt
        intro hlt
        rw [List.getElem?_append_left hlt] at hk
        exact absurd (h1 y (List.mem_of_getElem? hk)) (not_lt.2 (le_of_lt h))
      · intro h; exact h.2 y rfl
  -- where the first greater item is
  have hcase : ∃ p, (∀ k, k < p → above lt (il ++ ir) x k = false) ∧
      (∀ k, p ≤ k → above lt (il ++ ir) x k = true) ∧
      p = il.length + (if headIs x ir then 1 else 0) := by
    refine ⟨_, ?_, ?_, rfl⟩
    · intro k hk
      rw [← Bool.not_eq_true, key]
      rintro ⟨h3, h4⟩
      cases ir with
      | nil => simp [headIs] at hk; omega
      | cons y ir =>
        simp only [headIs, decide_eq_true_eq] at hk
        by_cases he : y.key = x.key
        · rw [if_pos he] at hk
          have : k = il.length := by omega
          subst this
          have := h4 y (by simp)
          rw [he] at this; exact absurd this (lt_irrefl _)
        · rw [if_neg he] at hk; omega
    · intro k hk
      rw [key]
      refine ⟨by omega, ?_⟩
      intro z hz
      have hk' : il.length ≤ k := by omega
      rw [List.getElem?_append_right hk'] at hz
      cases ir with
      | nil => simp at hz
      | cons y ir =>
        simp only [headIs, decide_eq_true_eq] at hk
        have hsr : Sorted (y :: ir) := (List.pairwise_append.1 hs).2.1
        cases hd : k - il.length with
        | zero =>
          rw [hd] at hz
          simp only [List.getElem?_cons_zero, Option.some.injEq] at hz
          subst hz
          have hne : y.key ≠ x.key := by
            intro he; rw [if_pos he] at hk; omega
          exact lt_of_le_of_ne (h2 y (by simp)) (fun h => hne h.symm)
        | succ d =>
          rw [hd] at hz
          simp only [List.getElem?_cons_succ] at hz
          have := (List.pairwise_cons.1 hsr).1 z (List.mem_of_getElem? hz)
          exact lt_of_le_of_lt (h2 y (by simp)) this
  obtain ⟨p, hp1, hp2, hp3⟩ := hcase
  have hmono : ∀ a b : Nat, a ≤ b → above lt (il ++ ir) x a = true →
      above lt (il ++ ir) x b = true := by
    intro a b hab ha
    apply hp2
    have : p ≤ a := by
      apply Nat.le_of_not_lt
      intro h; rw [hp1 a h] at ha; cases ha
    omega
  have hsearch := search_spec (f := above lt (il ++ ir) x) hmono
    (il ++ ir).length 0 (il ++ ir).length (by omega) (by omega) (by intro k hk; omega)
    (by intro k hk; rw [above, List.getElem?_eq_none_iff.2 hk])
  have hr : search (above lt (il ++ ir) x) (il ++ ir).length 0 (il ++ ir).length = p := by
    obtain ⟨a1, a2⟩ := hsearch
    rcases Nat.lt_trichotomy (search (above lt (il ++ ir) x) (il ++ ir).length 0 (il ++ ir).length) p with h | h | h
    · have := hp1 _ h
      rw [a2 _ (Nat.le_refl _)] at this; cases this
    · exact h
    · have := a1 _ h
      rw [hp2 _ (Nat.le_refl _)] at this; cases this
  unfold find
  dsimp only
  rw [hr]
  clear hr hsearch hmono hp1 hp2
  cases ir with
  | nil =>
    have hp : p = il.length := by simpa [headIs] using hp3
    rw [hp, List.append_nil, if_neg]
    · rfl
    rintro ⟨hpos, hm⟩
    rw [notBelow, List.getElem?_eq_getElem (by omega)] at hm
    have := h1 _ (List.getElem_mem (h := (by omega : il.length - 1 < il.length)))
    simp [lt, Item.less, this] at hm
  | cons y ir =>
    by_cases he : y.key = x.key
    · have hp : p = il.length + 1 := by simpa [headIs, he] using hp3
      rw [hp, if_pos]
      · simp [headIs, he]
      · refine ⟨by omega, ?_⟩
        simp [notBelow, lt, Item.less, he]
    · have hp : p = il.length := by simpa [headIs, he] using hp3
      rw [hp, if_neg]
      · simp [headIs, he]
      · rintro ⟨hpos, hm⟩
        rw [notBelow, List.getElem?_append_left (by omega), List.getElem?_eq_getElem (by omega)] at hm
        have := h1 _ (List.getElem_mem (h := (by omega : il.length - 1 < il.length)))
        simp [lt, Item.less, this] at hm

/-- Every sorted list splits at an item. -/
theorem split_at {s : List (Item K V)} (hs : Sorted s) (x : Item K V) :
    ∃ il ir, s = il ++ ir ∧ (∀ y ∈ il, y.key < x.key) ∧ ∀ y ∈ ir, x.key ≤ y.key := by
  induction s with
  | nil => exact ⟨[], [], rfl, by simp, by simp⟩
  | cons a s ih =>
    obtain ⟨h1, h2⟩ := List.pairwise_cons.1 hs
    by_cases ha : a.key < x.key
    · obtain ⟨il, ir, rfl, h3, h4⟩ := ih h2
      refine ⟨a :: il, ir, rfl, ?_, h4⟩
      intro y hy
      rcases List.mem_cons.1 hy with rfl | hy
      · exact ha
      · exact h3 y hy
    · refine ⟨[], a :: s, rfl, by simp, ?_⟩
      intro y hy
      rcases List.mem_cons.1 hy with rfl | hy
      · exact not_lt.1 ha
      · exact le_trans (not_lt.1 ha) (le_of_lt (h1 y hy))

/-! ### Operations in the middle of a sorted list -/

theorem roi_mid {A C B : List (Item K V)} {x : Item K V} (h1 : ∀ y ∈ A, y.key < x.key) (h2 : ∀ y ∈ B, x.key < y.key) :
    TreeMap.replaceOrInsert (A ++ (C ++ B)) x =
      (A ++ ((TreeMap.replaceOrInsert C x).1 ++ B), (TreeMap.replaceOrInsert C x).2) := by
  induction A with
  | nil =>
    simp only [List.nil_append]
    induction C with
    | nil =>
      cases B with
      | nil => rfl
      | cons b B =>
        have := h2 b (by simp)
        simp [TreeMap.replaceOrInsert, Item.less, this]
    | cons c C ih =>
      simp only [List.cons_append, TreeMap.replaceOrInsert, ih]
      split
      · rfl
      · split <;> rfl
  | cons a A ih =>
    have ha := h1 a (by simp)
    have hna : ¬ x.key < a.key := not_lt.2 (le_of_lt ha)
    simp only [List.cons_append, TreeMap.replaceOrInsert, Item.less, ha, hna, decide_false, decide_true, Bool.false_eq_true,
      if_false, if_true, ih (fun y hy => h1 y (List.mem_cons_of_mem _ hy))]

theorem get_mid {A C B : List (Item K V)} {x : Item K V} (h1 : ∀ y ∈ A, y.key < x.key) (h2 : ∀ y ∈ B, x.key < y.key) :
    treeGet (A ++ (C ++ B)) x = treeGet C x := by
  rw [← TreeMap.roi_prev, roi_mid h1 h2, TreeMap.roi_prev]

theorem del_mid {A C B : List (Item K V)} {x : Item K V} (h1 : ∀ y ∈ A, y.key < x.key) (h2 : ∀ y ∈ B, x.key < y.key) :
    treeDelete (A ++ (C ++ B)) x = A ++ (treeDelete C x ++ B) := by
  induction A with
  | nil =>
    simp only [List.nil_append]
    induction C with
    | nil =>
      cases B with
      | nil => rfl
      | cons b B =>
        have := h2 b (by simp)
        simp [treeDelete, Item.less, this]
    | cons c C ih =>
      simp only [List.cons_append, treeDelete, ih]
      split
      · rfl
      · split <;> rfl
  | cons a A ih =>
    have ha := h1 a (by simp)
    have hna : ¬ x.key < a.key := not_lt.2 (le_of_lt ha)
    simp only [List.cons_append, treeDelete, Item.less, ha, hna, decide_false, decide_true, Bool.false_eq_true,
      if_false, if_true, ih (fun y hy => h1 y (List.mem_cons_of_mem _ hy))]

theorem roi_hit {y x : Item K V} (h : y.key = x.key) : TreeMap.replaceOrInsert [y] x = ([x], some y) := by
  simp [TreeMap.replaceOrInsert, Item.less, h]

theorem get_hit {y x : Item K V} (h : y.key = x.key) : treeGet [y] x = some y := by
  simp [treeGet, Item.less, h]

theorem del_hit {y x : Item K V} (h : y.key = x.key) : treeDelete [y] x = [] := by
  simp [treeDelete, Item.less, h]

/-! ### The items in order -/

/-- Items and children after the first, woven. -/
def post {T : Type} : List T → List (List T) → List T
  | i :: is, c :: cs => i :: (c ++ post is cs)
  | _, _ => []

/-- Children and the items after them, woven. -/
def pre {T : Type} : List (List T) → List T → List T
  | c :: cs, i :: is => c ++ i :: pre cs is
  | _, _ => []

def weave {T : Type} : List (List T) → List T → List T
  | [], _ => []
  | c :: cs, is => c ++ post is cs

/-- All items of a node in order. -/
def flat {T : Type} : (h : Nat) → Node T h → List T
  | 0, n => n
  | h + 1, (its, cs) => weave (cs.map (flat h)) its

theorem post_append {T : Type} {a b : List T} {c d : List (List T)} (h : a.length = c.length) :
    post (a ++ b) (c ++ d) = post a c ++ post b d := by
  induction a generalizing c with
  | nil =>
    cases c with
    | nil => cases b <;> cases d <;> rfl
    | cons _ _ => simp at h
  | cons x a ih =>
    cases c with
    | nil => simp at h
    | cons y c =>
      simp only [List.cons_append, post]
      rw [ih (by simpa using h)]
      simp

theorem weave_mid {T : Type} {cl cr : List (List T)} {c : List T} {il ir : List T} (h : cl.length = il.length) :
    weave (cl ++ c :: cr) (il ++ ir) = pre cl il ++ (c ++ post ir cr) := by
  induction cl generalizing il with
  | nil =>
    have : il = [] := by simpa using h.symm
    subst this
    rfl
  | cons a cl ih =>
    cases il with
    | nil => simp at h
    | cons i il =>
      have h' : cl.length = il.length := by simpa using h
      have := ih h'
      simp only [List.cons_append, weave, pre]
      cases cl with
      | nil =>
        have : il = [] := by simpa using h'.symm
        subst this
        simp [post, pre]
      | cons b cl =>
        simp only [List.cons_append, weave] at this
        simp only [List.cons_append, post]
        rw [this]
        simp

theorem pre_snoc {T : Type} {cl : List (List T)} {c : List T} {il : List T} {i : T} (h : cl.length = il.length) :
    pre (cl ++ [c]) (il ++ [i]) = pre cl il ++ (c ++ [i]) := by
  induction cl generalizing il with
  | nil =>
    have : il = [] := by simpa using h.symm
    subst this
    simp [pre]
  | cons a cl ih =>
    cases il with
    | nil => simp at h
    | cons j il =>
      simp only [List.cons_append, pre]
      rw [ih (by simpa using h)]
      simp

theorem post_cons {T : Type} (i : T) (is : List T) (c : List T) (cs : List (List T)) :
    post (i :: is) (c :: cs) = i :: (c ++ post is cs) := rfl

/-- The items of a node are a sublist of all items. -/
theorem post_sub {T : Type} {is : List T} {cs : List (List T)} (h : is.length = cs.length) : List.Sublist is (post is cs) := by
  induction is generalizing cs with
  | nil => simp
  | cons i is ih =>
    cases cs with
    | nil => simp at h
    | cons c cs =>
      simp only [post]
      exact List.Sublist.cons_cons _ ((ih (by simpa using h)).trans (List.sublist_append_right _ _))

/-- Inner structure: one child more than items, children between the bounds. -/
def Inner {T : Type} (mn mx : Nat) : (h : Nat) → Node T h → Prop
  | 0, _ => True
  | h + 1, (its, cs) => cs.length = its.length + 1 ∧
      ∀ c ∈ cs, mn ≤ (items h c).length ∧ (items h c).length ≤ mx ∧ Inner mn mx h c

theorem items_sub {T : Type} {mn mx h : Nat} {n : Node T h} (hi : Inner mn mx h n) : List.Sublist (items h n) (flat h n) := by
  cases h with
  | zero => exact List.Sublist.refl _
  | succ h =>
    obtain ⟨its, cs⟩ := n
    obtain ⟨h1, _⟩ := hi
    cases cs with
    | nil => simp at h1
    | cons c cs =>
      show List.Sublist its (weave _ _)
      simp only [List.map_cons, weave]
      refine (post_sub ?_).trans (List.sublist_append_right _ _)
      simpa using h1.symm

theorem sorted_items {mn mx h : Nat} {n : Node (Item K V) h} (hi : Inner mn mx h n) (hs : Sorted (flat h n)) :
    Sorted (items h n) := List.Pairwise.sublist (items_sub hi) hs

/-- Split the children where the items split. -/
theorem split_children {C : Type} {cs : List C} {m n : Nat} (h : cs.length = m + n + 1) :
    ∃ cl c cr, cs = cl ++ c :: cr ∧ cl.length = m ∧ cr.length = n := by
  refine ⟨cs.take m, cs[m]'(by omega), cs.drop (m + 1), ?_, ?_, ?_⟩
  · rw [← List.drop_eq_getElem_cons, List.take_append_drop]
  · rw [List.length_take]; omega
  · rw [List.length_drop]; omega

theorem set_mid {C : Type} {cl cr : List C} {c d : C} {i : Nat} (h : cl.length = i) :
    (cl ++ c :: cr).set i d = cl ++ d :: cr := by
  subst h
  rw [List.set_append]; simp

theorem get_at {C : Type} {cl cr : List C} {c : C} {i : Nat} (h : cl.length = i) : (cl ++ c :: cr)[i]? = some c := by
  subst h; simp

theorem insertAt_mid {C : Type} {cl cr : List C} {c : C} {i : Nat} (h : cl.length = i) :
    insertAt (cl ++ cr) i c = cl ++ c :: cr := by
  subst h; simp [insertAt]

theorem erase_mid {C : Type} {cl cr : List C} {c : C} {i : Nat} (h : cl.length = i) :
    (cl ++ c :: cr).eraseIdx i = cl ++ cr := by
  subst h
  rw [List.eraseIdx_append_of_length_le (Nat.le_refl _)]; simp

/-- All items before the place of `x` are smaller. -/
theorem pre_lt {cl : List (List (Item K V))} {il : List (Item K V)} {x : Item K V} (hl : cl.length = il.length)
    (hs : Sorted (pre cl il)) (h : ∀ y ∈ il, y.key < x.key) : ∀ y ∈ pre cl il, y.key < x.key := by
  rcases List.eq_nil_or_concat il with rfl | ⟨il', z, rfl⟩
  · have : cl = [] := by simpa using hl
    subst this; simp [pre]
  · rcases List.eq_nil_or_concat cl with rfl | ⟨cl', c, rfl⟩
    · simp at hl
    · simp only [List.concat_eq_append] at *
      have hl' : cl'.length = il'.length := by simpa using hl
      rw [pre_snoc hl'] at hs ⊢
      have hz := h z (by simp)
      intro y hy
      rw [← List.append_assoc] at hs hy
      rcases List.mem_append.1 hy with hy | hy
      · exact lt_trans ((List.pairwise_append.1 hs).2.2 y hy z (by simp)) hz
      · rw [List.mem_singleton] at hy; subst hy; exact hz

/-- All items after the place of `x` are greater. -/
theorem post_gt {cr : List (List (Item K V))} {ir : List (Item K V)} {x : Item K V}
    (hs : Sorted (post ir cr)) (h : ∀ y ∈ ir, x.key < y.key) : ∀ y ∈ post ir cr, x.key < y.key := by
  cases ir with
  | nil => simp [post]
  | cons i ir =>
    cases cr with
    | nil => simp [post]
    | cons c cr =>
      rw [post_cons] at hs ⊢
      have hi := h i (by simp)
      intro y hy
      rcases List.mem_cons.1 hy with rfl | hy
      · exact hi
      · exact lt_trans hi ((List.pairwise_cons.1 hs).1 y hy)

end Gofer.BTree
