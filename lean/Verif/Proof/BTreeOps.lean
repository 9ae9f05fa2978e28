import Verif.Proof.BTree
import Mathlib.Tactic.Tauto

/-! # Insertion, search and removal in the B-tree -/
namespace Gofer.BTree
open Gofer.TreeMap (Item Sorted treeGet treeDelete)
variable {K V : Type} [LinearOrder K]

theorem find_cases {s : List (Item K V)} (hs : Sorted s) (x : Item K V) :
    (∃ il y ir, s = il ++ y :: ir ∧ find lt s x = (il.length, true) ∧ y.key = x.key ∧
      (∀ z ∈ il, z.key < x.key) ∧ ∀ z ∈ ir, x.key < z.key) ∨
    (∃ il ir, s = il ++ ir ∧ find lt s x = (il.length, false) ∧
      (∀ z ∈ il, z.key < x.key) ∧ ∀ z ∈ ir, x.key < z.key) := by
  obtain ⟨il, ir, rfl, h1, h2⟩ := split_at hs x
  have hf := find_eq hs h1 h2
  cases ir with
  | nil => exact Or.inr ⟨il, [], rfl, hf, h1, by simp⟩
  | cons y ir =>
    have hsr : Sorted (y :: ir) := (List.pairwise_append.1 hs).2.1
    obtain ⟨hy, _⟩ := List.pairwise_cons.1 hsr
    by_cases he : y.key = x.key
    · left
      refine ⟨il, y, ir, rfl, by rw [hf]; simp [headIs, he], he, h1, ?_⟩
      intro z hz; rw [← he]; exact hy z hz
    · right
      have hlt : x.key < y.key := lt_of_le_of_ne (h2 y (by simp)) (fun h => he h.symm)
      refine ⟨il, y :: ir, rfl, by rw [hf]; simp [headIs, he], h1, ?_⟩
      intro z hz
      rcases List.mem_cons.1 hz with rfl | hz
      · exact hlt
      · exact lt_trans hlt (hy z hz)

theorem flat_mid {T : Type} {h : Nat} {cl cr : List (Node T h)} {c : Node T h} {il ir : List T}
    (hl : cl.length = il.length) :
    flat (h + 1) ((il ++ ir, cl ++ c :: cr) : List T × List (Node T h)) =
      pre (cl.map (flat h)) il ++ (flat h c ++ post ir (cr.map (flat h))) := by
  show weave ((cl ++ c :: cr).map (flat h)) (il ++ ir) = _
  rw [List.map_append, List.map_cons]
  exact weave_mid (by simpa using hl)

theorem sorted_parts {A C B : List (Item K V)} (h : Sorted (A ++ (C ++ B))) : Sorted A ∧ Sorted C ∧ Sorted B := by
  have h1 := List.pairwise_append.1 h
  have h2 := List.pairwise_append.1 h1.2.1
  exact ⟨h1.1, h2.1, h2.2.1⟩

theorem list_split {T : Type} {s : List T} {i : Nat} (h : i < s.length) : ∃ l m r, s = l ++ m :: r ∧ l.length = i := by
  refine ⟨s.take i, s[i], s.drop (i + 1), ?_, ?_⟩
  · rw [← List.drop_eq_getElem_cons, List.take_append_drop]
  · rw [List.length_take]; omega

theorem take_mid {C : Type} {cl cr : List C} {c : C} {i : Nat} (h : cl.length = i) : (cl ++ c :: cr).take i = cl := by
  subst h; simp

theorem drop_mid {C : Type} {cl cr : List C} {c : C} {i : Nat} (h : cl.length = i) : (cl ++ c :: cr).drop (i + 1) = cr := by
  subst h; simp

theorem split_spec {T : Type} {mn mx h i : Nat} {n : Node T h} (hi : Inner mn mx h n) (hlen : i < (items h n).length) :
    ∃ a m b, split h n i = some (a, m, b) ∧ flat h n = flat h a ++ m :: flat h b ∧
      (items h a).length = i ∧ (items h b).length = (items h n).length - i - 1 ∧ Inner mn mx h a ∧ Inner mn mx h b := by
  cases h with
  | zero =>
    obtain ⟨l, m, r, e, hl⟩ := list_split (T := T) (s := n) hlen
    have e0 : (n : List T) = l ++ m :: r := e
    subst e0
    refine ⟨l, m, r, ?_, rfl, hl, ?_, trivial, trivial⟩
    · simp only [split]
      rw [get_at hl, take_mid hl, drop_mid hl]; rfl
    · simp [items]; omega
  | succ h =>
    obtain ⟨its, cs⟩ := n
    obtain ⟨hc, hch⟩ := hi
    obtain ⟨l, m, r, rfl, hl⟩ := list_split (T := T) (s := its) hlen
    obtain ⟨cl, c, cr, rfl, hcl, hcr⟩ := split_children (cs := cs) (m := i) (n := r.length + 1) (by simp at hc; omega)
    cases cr with
    | nil => simp at hcr
    | cons d cr =>
      have htk : (cl ++ c :: d :: cr).take (i + 1) = cl ++ [c] := by
        rw [List.take_append, hcl, List.take_of_length_le (by omega)]; simp
      have hdp : (cl ++ c :: d :: cr).drop (i + 1) = d :: cr := drop_mid hcl
      refine ⟨(l, cl ++ [c]), m, (r, d :: cr), ?_, ?_, hl, ?_, ?_, ?_⟩
      · simp only [split]
        rw [get_at hl, take_mid hl, drop_mid hl, htk, hdp]; rfl
      · have e2 := flat_mid (cl := cl) (c := c) (cr := []) (il := l) (ir := []) (by omega)
        rw [List.append_nil] at e2
        rw [flat_mid (by omega), e2]
        simp [post, flat, weave]
      · simp [items]; omega
      · refine ⟨?_, fun q hq => hch q ?_⟩
        · simp; omega
        · simp only [List.mem_append, List.mem_cons, List.not_mem_nil, or_false] at hq ⊢; tauto
      · refine ⟨?_, fun q hq => hch q ?_⟩
        · simp at hcr ⊢; omega
        · simp only [List.mem_append, List.mem_cons] at hq ⊢; tauto

theorem insert_spec {mn mx : Nat} (hmx : mx = 2 * mn + 1) (hmn : 1 ≤ mn) (h : Nat) : ∀ (n : Node (Item K V) h) (x : Item K V),
    Inner mn mx h n → Sorted (flat h n) → (items h n).length < mx →
    ∃ n', insert lt mx h n x = some (n', (TreeMap.replaceOrInsert (flat h n) x).2) ∧
      flat h n' = (TreeMap.replaceOrInsert (flat h n) x).1 ∧ Inner mn mx h n' ∧
      (items h n).length ≤ (items h n').length ∧ (items h n').length ≤ (items h n).length + 1 := by
  induction h with
  | zero =>
    intro n x _ hs _
    have hs' : Sorted (K := K) (V := V) n := hs
    rcases find_cases hs' x with ⟨il, y, ir, e, hf, he, h1, h2⟩ | ⟨il, ir, e, hf, h1, h2⟩
    · have hr := roi_mid (A := il) (C := [y]) (B := ir) h1 h2
      rw [roi_hit he] at hr
      have e' : flat 0 n = il ++ ([y] ++ ir) := e
      rw [e', hr]
      have e0 : (n : List (Item K V)) = il ++ y :: ir := e
      subst e0
      refine ⟨(il ++ x :: ir : List (Item K V)), ?_, rfl, trivial, ?_, ?_⟩
      · simp only [insert, hf, if_true]
        rw [get_at rfl, set_mid rfl]; rfl
      · simp [items]
      · simp [items]
    · have hr := roi_mid (A := il) (C := []) (B := ir) h1 h2
      have e' : flat 0 n = il ++ ([] ++ ir) := e
      rw [e', hr]
      have e0 : (n : List (Item K V)) = il ++ ir := e
      subst e0
      refine ⟨(il ++ x :: ir : List (Item K V)), ?_, rfl, trivial, ?_, ?_⟩
      · simp only [insert, hf, Bool.false_eq_true, if_false]
        rw [insertAt_mid rfl]; rfl
      · simp [items]
      · simp [items]; omega
  | succ h ih =>
    rintro ⟨its, cs⟩ x hi hs hfull
    have hsi : Sorted its := sorted_items hi hs
    obtain ⟨hc, hch⟩ := hi
    rcases find_cases hsi x with ⟨il, y, ir, rfl, hf, he, h1, h2⟩ | ⟨il, ir, rfl, hf, h1, h2⟩
    · obtain ⟨cl, c, cr, rfl, hcl, hcr⟩ := split_children (cs := cs) (m := il.length) (n := ir.length + 1)
        (by simp at hc; omega)
      cases cr with
      | nil => simp at hcr
      | cons d cr =>
        have hfl : ∀ z, flat (h + 1) ((il ++ z :: ir, cl ++ c :: d :: cr) : List (Item K V) × List (Node (Item K V) h)) =
            (pre (cl.map (flat h)) il ++ flat h c) ++ ([z] ++ (flat h d ++ post ir (cr.map (flat h)))) := by
          intro z
          rw [flat_mid hcl]; simp [post]
        rw [hfl] at hs ⊢
        have ha : ∀ z ∈ pre (cl.map (flat h)) il ++ flat h c, z.key < x.key := by
          intro z hz; rw [← he]
          exact (List.pairwise_append.1 hs).2.2 z hz y (by simp)
        have hb : ∀ z ∈ flat h d ++ post ir (cr.map (flat h)), x.key < z.key := by
          intro z hz; rw [← he]
          exact (List.pairwise_cons.1 (List.pairwise_append.1 hs).2.1).1 z hz
        rw [roi_mid ha hb, roi_hit he]
        refine ⟨(il ++ x :: ir, cl ++ c :: d :: cr), ?_, hfl x, ⟨by simpa using hc, hch⟩, ?_, ?_⟩
        · simp only [insert, hf, if_true]
          rw [get_at rfl, set_mid rfl]; rfl
        · simp [items]
        · simp [items]
    · obtain ⟨cl, c, cr, rfl, hcl, hcr⟩ := split_children (cs := cs) (m := il.length) (n := ir.length)
        (by simp at hc; omega)
      have hfl := flat_mid (cl := cl) (c := c) (cr := cr) (il := il) (ir := ir) hcl
      rw [hfl] at hs
      obtain ⟨s1, s2, s3⟩ := sorted_parts hs
      have ha := pre_lt (by simpa using hcl) s1 h1
      have hb := post_gt s3 h2
      obtain ⟨k1, k2, k3⟩ := hch c (by simp)
      have hget : (cl ++ c :: cr)[il.length]? = some c := get_at hcl
      rw [hfl, roi_mid ha hb]
      by_cases hlt : (items h c).length < mx
      · obtain ⟨c', e1, e2, e3, e4, e5⟩ := ih c x k3 s2 hlt
        refine ⟨(il ++ ir, cl ++ c' :: cr), ?_, ?_, ⟨by simpa using hc, ?_⟩, Nat.le_refl _, Nat.le_succ _⟩
        · simp only [insert, hf, Bool.false_eq_true, if_false, hget, hlt, if_true, e1, Option.map_some, set_mid hcl]
        · rw [flat_mid hcl, e2]
        · intro q hq
          rcases List.mem_append.1 hq with hq | hq
          · exact hch q (by simp [hq])
          · rcases List.mem_cons.1 hq with rfl | hq
            · exact ⟨by omega, by omega, e3⟩
            · exact hch q (by simp [hq])
      · have hmid : mx / 2 = mn := by omega
        obtain ⟨a, m, b, f1, f2, f3, f4, f5, f6⟩ := split_spec (i := mx / 2) k3 (by omega)
        have hla : (items h a).length = mn := by omega
        have hlb : (items h b).length = mn := by omega
        have hins : insertAt (il ++ ir) il.length m = il ++ m :: ir := insertAt_mid rfl
        have hset : (cl ++ c :: cr).set il.length a = cl ++ a :: cr := set_mid hcl
        have hins2 : insertAt (cl ++ a :: cr) (il.length + 1) b = cl ++ a :: b :: cr := by
          have := insertAt_mid (cl := cl ++ [a]) (cr := cr) (c := b) (i := il.length + 1) (by simp [hcl])
          simpa using this
        rw [f2] at s2 ⊢
        have hsm := List.pairwise_append.1 s2
        have hsb := List.pairwise_cons.1 hsm.2.1
        have hchild : ∀ (cs' : List (Node (Item K V) h)), (∀ q ∈ cs', q ∈ cl ++ c :: cr ∨
            (mn ≤ (items h q).length ∧ (items h q).length ≤ mx ∧ Inner mn mx h q)) →
            ∀ q ∈ cs', mn ≤ (items h q).length ∧ (items h q).length ≤ mx ∧ Inner mn mx h q := by
          intro cs' hq q hm
          rcases hq q hm with hq | hq
          · exact hch q hq
          · exact hq
        by_cases hxm : x.key < m.key
        · obtain ⟨a', e1, e2, e3, e4, e5⟩ := ih a x f5 hsm.1 (by omega)
          have hb' : ∀ z ∈ m :: flat h b, x.key < z.key := by
            intro z hz
            rcases List.mem_cons.1 hz with rfl | hz
            · exact hxm
            · exact lt_trans hxm (hsb.1 z hz)
          have hroi := roi_mid (A := []) (C := flat h a) (B := m :: flat h b) (by simp) hb'
          rw [List.nil_append, List.nil_append] at hroi
          rw [hroi]
          refine ⟨(il ++ m :: ir, cl ++ a' :: b :: cr), ?_, ?_, ⟨?_, ?_⟩, ?_, ?_⟩
          · simp only [insert, hf, Bool.false_eq_true, if_false, hget, hlt, f1, hins, hset, hins2, lt, Item.less, hxm,
              decide_true, if_true]
            have e1' : insert Item.less mx h a x = _ := e1
            rw [e1', Option.map_some, set_mid hcl]
          · rw [flat_mid hcl, List.map_cons, post_cons, e2]; simp
          · simp at hc ⊢; omega
          · apply hchild
            intro q hq
            simp only [List.mem_append, List.mem_cons] at hq ⊢
            rcases hq with hq | rfl | rfl | hq
            · tauto
            · exact Or.inr ⟨by omega, by omega, e3⟩
            · exact Or.inr ⟨by omega, by omega, f6⟩
            · tauto
          · simp [items]
          · simp [items]; omega
        · by_cases hmx' : m.key < x.key
          · obtain ⟨b', e1, e2, e3, e4, e5⟩ := ih b x f6 hsb.2 (by omega)
            have ha' : ∀ z ∈ flat h a ++ [m], z.key < x.key := by
              intro z hz
              rcases List.mem_append.1 hz with hz | hz
              · exact lt_trans (hsm.2.2 z hz m (by simp)) hmx'
              · rw [List.mem_singleton] at hz; subst hz; exact hmx'
            have hroi := roi_mid (A := flat h a ++ [m]) (C := flat h b) (B := []) ha' (by simp)
            simp only [List.append_nil, List.append_assoc, List.singleton_append] at hroi
            rw [hroi]
            refine ⟨(il ++ m :: ir, cl ++ a :: b' :: cr), ?_, ?_, ⟨?_, ?_⟩, ?_, ?_⟩
            · simp only [insert, hf, Bool.false_eq_true, if_false, hget, hlt, f1, hins, hset, hins2, lt, Item.less, hxm, hmx',
                decide_true, decide_false, if_true]
              have e1' : insert Item.less mx h b x = _ := e1
              rw [e1', Option.map_some]
              have := set_mid (cl := cl ++ [a]) (cr := cr) (c := b) (d := b') (i := il.length + 1) (by simp [hcl])
              rw [List.append_assoc, List.append_assoc] at this
              simp only [List.singleton_append] at this
              rw [this]
            · rw [flat_mid hcl, List.map_cons, post_cons, e2]; simp
            · simp at hc ⊢; omega
            · apply hchild
              intro q hq
              simp only [List.mem_append, List.mem_cons] at hq ⊢
              rcases hq with hq | rfl | rfl | hq
              · tauto
              · exact Or.inr ⟨by omega, by omega, f5⟩
              · exact Or.inr ⟨by omega, by omega, e3⟩
              · tauto
            · simp [items]
            · simp [items]; omega
          · have he : m.key = x.key := le_antisymm (not_lt.1 hxm) (not_lt.1 hmx')
            have hroi := roi_mid (A := flat h a) (C := [m]) (B := flat h b) (x := x)
              (fun z hz => by rw [← he]; exact hsm.2.2 z hz m (by simp))
              (fun z hz => by rw [← he]; exact hsb.1 z hz)
            rw [roi_hit he] at hroi
            simp only [List.singleton_append] at hroi
            rw [hroi]
            refine ⟨(il ++ x :: ir, cl ++ a :: b :: cr), ?_, ?_, ⟨?_, ?_⟩, ?_, ?_⟩
            · simp only [insert, hf, Bool.false_eq_true, if_false, hget, hlt, f1, hins, hset, hins2, lt, Item.less, hxm, hmx',
                decide_false, set_mid]
            · rw [flat_mid hcl, List.map_cons, post_cons]; simp
            · simp at hc ⊢; omega
            · apply hchild
              intro q hq
              simp only [List.mem_append, List.mem_cons] at hq ⊢
              rcases hq with hq | rfl | rfl | hq
              · tauto
              · exact Or.inr ⟨by omega, by omega, f5⟩
              · exact Or.inr ⟨by omega, by omega, f6⟩
              · tauto
            · simp [items]
            · simp [items]; omega

theorem nodeGet_spec {mn mx : Nat} (h : Nat) : ∀ (n : Node (Item K V) h) (x : Item K V),
    Inner mn mx h n → Sorted (flat h n) → nodeGet lt h n x = some (treeGet (flat h n) x) := by
  induction h with
  | zero =>
    intro n x _ hs
    have hs' : Sorted (K := K) (V := V) n := hs
    rcases find_cases hs' x with ⟨il, y, ir, e, hf, he, h1, h2⟩ | ⟨il, ir, e, hf, h1, h2⟩
    · have hr := get_mid (A := il) (C := [y]) (B := ir) h1 h2
      rw [get_hit he] at hr
      have e' : flat 0 n = il ++ ([y] ++ ir) := e
      rw [e', hr]
      have e0 : (n : List (Item K V)) = il ++ y :: ir := e
      subst e0
      simp only [nodeGet, hf, if_true]
      rw [get_at rfl]; rfl
    · have hr := get_mid (A := il) (C := []) (B := ir) h1 h2
      have e' : flat 0 n = il ++ ([] ++ ir) := e
      rw [e', hr]
      simp only [nodeGet, hf, Bool.false_eq_true, if_false]
      rfl
  | succ h ih =>
    rintro ⟨its, cs⟩ x hi hs
    have hsi : Sorted its := sorted_items hi hs
    obtain ⟨hc, hch⟩ := hi
    rcases find_cases hsi x with ⟨il, y, ir, rfl, hf, he, h1, h2⟩ | ⟨il, ir, rfl, hf, h1, h2⟩
    · obtain ⟨cl, c, cr, rfl, hcl, hcr⟩ := split_children (cs := cs) (m := il.length) (n := ir.length + 1)
        (by simp at hc; omega)
      cases cr with
      | nil => simp at hcr
      | cons d cr =>
        have hfl : flat (h + 1) ((il ++ y :: ir, cl ++ c :: d :: cr) : List (Item K V) × List (Node (Item K V) h)) =
            (pre (cl.map (flat h)) il ++ flat h c) ++ ([y] ++ (flat h d ++ post ir (cr.map (flat h)))) := by
          rw [flat_mid hcl]; simp [post]
        rw [hfl] at hs ⊢
        have ha : ∀ z ∈ pre (cl.map (flat h)) il ++ flat h c, z.key < x.key := by
          intro z hz; rw [← he]
          exact (List.pairwise_append.1 hs).2.2 z hz y (by simp)
        have hb : ∀ z ∈ flat h d ++ post ir (cr.map (flat h)), x.key < z.key := by
          intro z hz; rw [← he]
          exact (List.pairwise_cons.1 (List.pairwise_append.1 hs).2.1).1 z hz
        rw [get_mid ha hb, get_hit he]
        simp only [nodeGet, hf, if_true]
        rw [get_at rfl]; rfl
    · obtain ⟨cl, c, cr, rfl, hcl, hcr⟩ := split_children (cs := cs) (m := il.length) (n := ir.length)
        (by simp at hc; omega)
      have hfl := flat_mid (cl := cl) (c := c) (cr := cr) (il := il) (ir := ir) hcl
      rw [hfl] at hs
      obtain ⟨s1, s2, s3⟩ := sorted_parts hs
      have ha := pre_lt (by simpa using hcl) s1 h1
      have hb := post_gt s3 h2
      have hget : (cl ++ c :: cr)[il.length]? = some c := get_at hcl
      rw [hfl, get_mid ha hb]
      simp only [nodeGet, hf, Bool.false_eq_true, if_false, hget]
      exact ih c x (hch c (by simp)).2.2 s2

end Gofer.BTree
