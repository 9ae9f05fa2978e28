import Verif.Proof.BTreeOps

/-! # Removal from the B-tree -/
namespace Gofer.BTree
open Gofer.TreeMap (Item Sorted treeGet treeDelete)
variable {K V : Type} [LinearOrder K]

theorem last_split {T : Type} {s : List T} (h : 1 ≤ s.length) : ∃ l m, s = l ++ [m] := by
  rcases List.eq_nil_or_concat s with rfl | ⟨l, m, rfl⟩
  · simp at h
  · exact ⟨l, m, by simp⟩

theorem first_split {T : Type} {s : List T} (h : 1 ≤ s.length) : ∃ m l, s = m :: l := by
  cases s with
  | nil => simp at h
  | cons m l => exact ⟨m, l, rfl⟩

theorem stealLeft_spec {T : Type} {mn mx h : Nat} {l c : Node T h} {sep : T} (hl : Inner mn mx h l) (hc : Inner mn mx h c)
    (h1 : 1 ≤ (items h l).length) :
    ∃ l' st c', stealLeft h l sep c = some (l', st, c') ∧ flat h l ++ sep :: flat h c = flat h l' ++ st :: flat h c' ∧
      st ∈ flat h l ∧ (items h l').length + 1 = (items h l).length ∧ (items h c').length = (items h c).length + 1 ∧
      Inner mn mx h l' ∧ Inner mn mx h c' := by
  cases h with
  | zero =>
    obtain ⟨l0, st, e⟩ := last_split (T := T) (s := l) h1
    have e0 : (l : List T) = l0 ++ [st] := e
    subst e0
    refine ⟨l0, st, (List.cons sep c : List T), ?_, ?_, ?_, ?_, ?_, trivial, trivial⟩
    · simp [stealLeft]
    · show (l0 ++ [st]) ++ sep :: (c : List T) = l0 ++ st :: (sep :: c : List T)
      simp
    · simp [flat]
    · simp [items]
    · exact List.length_cons (α := T)
  | succ h =>
    obtain ⟨li, lc⟩ := l
    obtain ⟨ci, cc⟩ := c
    obtain ⟨a1, a2⟩ := hl
    obtain ⟨b1, b2⟩ := hc
    obtain ⟨l0, st, rfl⟩ := last_split (T := T) (s := li) h1
    obtain ⟨lc0, k, rfl⟩ := last_split (s := lc) (by omega)
    obtain ⟨p, q, rfl⟩ := last_split (s := lc0) (by simp at a1; omega)
    obtain ⟨c0, cc', rfl⟩ := first_split (s := cc) (by omega)
    have hp : p.length = l0.length := by simp at a1; omega
    have e1 := flat_mid (cl := p) (c := q) (cr := [k]) (il := l0) (ir := [st]) hp
    have e2 := flat_mid (cl := p) (c := q) (cr := []) (il := l0) (ir := []) hp
    rw [List.append_nil] at e2
    have e1' : flat (h + 1) ((l0 ++ [st], (p ++ [q]) ++ [k]) : List T × List (Node T h)) =
        pre (p.map (flat h)) l0 ++ (flat h q ++ st :: flat h k) := by
      rw [List.append_assoc, List.singleton_append, e1]; simp [post]
    refine ⟨(l0, p ++ [q]), st, (sep :: ci, k :: c0 :: cc'), ?_, ?_, ?_, ?_, ?_, ⟨?_, ?_⟩, ⟨?_, ?_⟩⟩
    · simp [stealLeft]
    · rw [e1', e2]
      simp [flat, weave, post]
    · rw [e1']; simp
    · simp [items]
    · simp [items]
    · simp at a1 ⊢; omega
    · intro z hz; exact a2 z (List.mem_append_left _ hz)
    · simp at b1 ⊢; omega
    · intro z hz
      rcases List.mem_cons.1 hz with rfl | hz
      · exact a2 z (by simp)
      · exact b2 z hz

theorem stealRight_spec {T : Type} {mn mx h : Nat} {c r : Node T h} {sep : T} (hc : Inner mn mx h c) (hr : Inner mn mx h r)
    (h1 : 1 ≤ (items h r).length) :
    ∃ c' st r', stealRight h c sep r = some (c', st, r') ∧ flat h c ++ sep :: flat h r = flat h c' ++ st :: flat h r' ∧
      st ∈ flat h r ∧ (items h r').length + 1 = (items h r).length ∧ (items h c').length = (items h c).length + 1 ∧
      Inner mn mx h c' ∧ Inner mn mx h r' := by
  cases h with
  | zero =>
    obtain ⟨st, r0, e⟩ := first_split (T := T) (s := r) h1
    have e0 : (r : List T) = st :: r0 := e
    subst e0
    refine ⟨(List.append c [sep] : List T), st, r0, ?_, ?_, ?_, ?_, ?_, trivial, trivial⟩
    · simp [stealRight]
    · exact (List.append_assoc (α := T) c [sep] (st :: r0)).symm
    · simp [flat]
    · simp [items]
    · exact List.length_append (α := T) (as := c) (bs := [sep])
  | succ h =>
    obtain ⟨ci, cc⟩ := c
    obtain ⟨ri, rc⟩ := r
    obtain ⟨b1, b2⟩ := hc
    obtain ⟨a1, a2⟩ := hr
    obtain ⟨st, r0, rfl⟩ := first_split (T := T) (s := ri) h1
    obtain ⟨k, rc0, rfl⟩ := first_split (s := rc) (by omega)
    obtain ⟨k2, rc', rfl⟩ := first_split (s := rc0) (by simp at a1; omega)
    obtain ⟨p, q, rfl⟩ := last_split (s := cc) (by omega)
    have hp : p.length = ci.length := by simp at b1; omega
    have e1 := flat_mid (cl := p ++ [q]) (c := k) (cr := []) (il := ci ++ [sep]) (ir := []) (by simp [hp])
    have e2 := flat_mid (cl := p) (c := q) (cr := []) (il := ci) (ir := []) hp
    rw [List.append_nil] at e1 e2
    rw [List.map_append, List.map_singleton, pre_snoc (by simpa using hp)] at e1
    refine ⟨(ci ++ [sep], (p ++ [q]) ++ [k]), st, (r0, k2 :: rc'), ?_, ?_, ?_, ?_, ?_, ⟨?_, ?_⟩, ⟨?_, ?_⟩⟩
    · simp [stealRight]
    · rw [e1, e2]
      simp [flat, weave, post]
    · simp [flat, weave, post]
    · simp [items]
    · simp [items]
    · simp at b1 ⊢; omega
    · intro z hz
      rcases List.mem_append.1 hz with hz | hz
      · exact b2 z hz
      · rw [List.mem_singleton] at hz; subst hz; exact a2 z (by simp)
    · simp at a1 ⊢; omega
    · intro z hz; exact a2 z (List.mem_cons_of_mem _ hz)

theorem merge_spec {T : Type} {mn mx h : Nat} {c r : Node T h} {sep : T} (hc : Inner mn mx h c) (hr : Inner mn mx h r) :
    flat h (merge h c sep r) = flat h c ++ sep :: flat h r ∧
      (items h (merge h c sep r)).length = (items h c).length + 1 + (items h r).length ∧ Inner mn mx h (merge h c sep r) := by
  cases h with
  | zero =>
    refine ⟨rfl, ?_, trivial⟩
    refine (List.length_append (α := T) (as := c) (bs := List.cons sep r)).trans ?_
    show List.length (α := T) c + (List.length (α := T) r + 1) = List.length (α := T) c + 1 + List.length (α := T) r
    omega
  | succ h =>
    obtain ⟨ci, cc⟩ := c
    obtain ⟨ri, rc⟩ := r
    obtain ⟨b1, b2⟩ := hc
    obtain ⟨a1, a2⟩ := hr
    obtain ⟨p, q, rfl⟩ := last_split (s := cc) (by omega)
    obtain ⟨k, rc, rfl⟩ := first_split (s := rc) (by omega)
    have hp : p.length = ci.length := by simp at b1; omega
    have e1 := flat_mid (cl := p) (c := q) (cr := k :: rc) (il := ci) (ir := sep :: ri) hp
    have e2 := flat_mid (cl := p) (c := q) (cr := []) (il := ci) (ir := []) hp
    rw [List.append_nil] at e2
    refine ⟨?_, ?_, ?_, ?_⟩
    · show flat (h + 1) ((ci ++ sep :: ri, (p ++ [q]) ++ k :: rc) : List T × List (Node T h)) = _
      rw [List.append_assoc, List.singleton_append, e1, e2]
      simp [flat, weave, post]
    · simp [merge, items]; omega
    · simp at a1 b1 ⊢; omega
    · intro z hz
      rcases List.mem_append.1 hz with hz | hz
      · exact b2 z hz
      · exact a2 z hz

theorem rich_iff {T : Type} {h mn : Nat} {cs : List (Node T h)} {j : Nat} :
    rich mn cs j = true ↔ ∃ c, cs[j]? = some c ∧ mn < (items h c).length := by
  unfold rich
  cases cs[j]? with
  | none => simp
  | some c => simp

/-- The items and children around a pair of children. -/
theorem pair_split {T C : Type} {its : List T} {cs : List C} (hc : cs.length = its.length + 1) {i : Nat} (hi : i < its.length) :
    ∃ il sep ir cl c d cr, its = il ++ sep :: ir ∧ cs = cl ++ c :: d :: cr ∧ il.length = i ∧ cl.length = i := by
  obtain ⟨il, sep, ir, rfl, hl⟩ := list_split (s := its) hi
  obtain ⟨cl, c, cr, rfl, hcl, hcr⟩ := split_children (cs := cs) (m := i) (n := ir.length + 1) (by simp at hc; omega)
  cases cr with
  | nil => simp at hcr
  | cons d cr => exact ⟨il, sep, ir, cl, c, d, cr, rfl, rfl, hl, hcl⟩

theorem flat_pair {T : Type} {h : Nat} {cl cr : List (Node T h)} {c d : Node T h} {il ir : List T} {sep : T}
    (hl : cl.length = il.length) :
    flat (h + 1) ((il ++ sep :: ir, cl ++ c :: d :: cr) : List T × List (Node T h)) =
      pre (cl.map (flat h)) il ++ ((flat h c ++ sep :: flat h d) ++ post ir (cr.map (flat h))) := by
  rw [flat_mid hl]; simp [post]

theorem set2 {C : Type} {cl cr : List C} {c d c' d' : C} {i : Nat} (h : cl.length = i) :
    ((cl ++ c :: d :: cr).set i c').set (i + 1) d' = cl ++ c' :: d' :: cr := by
  rw [set_mid h]
  have := set_mid (cl := cl ++ [c']) (cr := cr) (c := d) (d := d') (i := i + 1) (by simp [h])
  rw [List.append_assoc, List.append_assoc] at this
  simpa using this

theorem get2 {C : Type} {cl cr : List C} {c d : C} {i : Nat} (h : cl.length = i) : (cl ++ c :: d :: cr)[i + 1]? = some d := by
  have := get_at (cl := cl ++ [c]) (cr := cr) (c := d) (i := i + 1) (by simp [h])
  rw [List.append_assoc] at this
  simpa using this

theorem erase2 {C : Type} {cl cr : List C} {c d : C} {i : Nat} (h : cl.length = i) :
    (cl ++ c :: d :: cr).eraseIdx (i + 1) = cl ++ c :: cr := by
  have := erase_mid (cl := cl ++ [c]) (cr := cr) (c := d) (i := i + 1) (by simp [h])
  rw [List.append_assoc, List.append_assoc] at this
  simpa using this

/-- What `growChildAndRemove` does before it calls `remove` again. -/
theorem grow_spec {mn mx : Nat} (hmx : mx = 2 * mn + 1) {h : Nat} {its : List (Item K V)} {cs : List (Node (Item K V) h)}
    {i : Nat} (hin : Inner mn mx (h + 1) (its, cs)) (hs : Sorted (flat (h + 1) (its, cs)))
    (hi : i ≤ its.length) (h1 : 1 ≤ its.length) (hpoor : rich mn cs i = false) :
    ∃ its' cs', grow mn its cs i = some (its', cs') ∧ Inner mn mx (h + 1) (its', cs') ∧
      flat (h + 1) (its', cs') = flat (h + 1) (its, cs) ∧ its.length ≤ its'.length + 1 ∧ its'.length ≤ its.length ∧
      ((∃ il sep st ir, its = il ++ sep :: ir ∧ its' = il ++ st :: ir ∧ st.key < sep.key ∧ i = il.length + 1 ∧ rich mn cs' i = true) ∨
       (∃ il sep st ir, its = il ++ sep :: ir ∧ its' = il ++ st :: ir ∧ sep.key < st.key ∧ i = il.length ∧ rich mn cs' i = true) ∨
       (∃ il sep ir, its = il ++ sep :: ir ∧ its' = il ++ ir ∧ (i = il.length ∨ (i = il.length + 1 ∧ ir = [])) ∧
          rich mn cs' il.length = true)) := by
  have hin0 := hin
  obtain ⟨hc, hch⟩ := hin
  have hpoor' : ∀ c, cs[i]? = some c → (items h c).length = mn := by
    intro c hcs
    have := (hch c (List.mem_of_getElem? hcs)).1
    have h2 : ¬ mn < (items h c).length := fun hlt => by
      have := rich_iff.2 ⟨c, hcs, hlt⟩
      rw [hpoor] at this; cases this
    omega
  unfold grow
  by_cases hL : 0 < i ∧ rich mn cs (i - 1) = true
  · rw [if_pos hL]
    obtain ⟨hpos, hr⟩ := hL
    obtain ⟨il, sep, ir, cl, l, c, cr, rfl, rfl, hil, hcl⟩ := pair_split hc (i := i - 1) (by omega)
    have hg1 : (cl ++ l :: c :: cr)[i - 1]? = some l := get_at hcl
    have hg2 : (il ++ sep :: ir)[i - 1]? = some sep := get_at hil
    have hg3 : (cl ++ l :: c :: cr)[i]? = some c := by
      have := get2 (cl := cl) (c := l) (d := c) (cr := cr) hcl
      rwa [show i - 1 + 1 = i by omega] at this
    obtain ⟨l2, hl2, hrich⟩ := rich_iff.1 hr
    rw [hg1] at hl2
    obtain rfl := Option.some.inj hl2
    have kl := hch l (by simp)
    have kc := hch c (by simp)
    have hcm := hpoor' c hg3
    obtain ⟨l', st, c', q1, q2, q3, q4, q5, q6, q7⟩ := stealLeft_spec (sep := sep) kl.2.2 kc.2.2 (by omega)
    simp only [hg1, hg2, hg3, q1, Option.map_some]
    have hset : ((cl ++ l :: c :: cr).set (i - 1) l').set i c' = cl ++ l' :: c' :: cr := by
      have := set2 (cl := cl) (c := l) (d := c) (cr := cr) (c' := l') (d' := c') hcl
      rwa [show i - 1 + 1 = i by omega] at this
    rw [set_mid hil, hset]
    rw [flat_pair (by omega)] at hs
    refine ⟨_, _, rfl, ⟨by simpa using hc, ?_⟩, ?_, by simp, by simp, Or.inl ⟨il, sep, st, ir, rfl, rfl, ?_, by omega, ?_⟩⟩
    · intro z hz
      simp only [List.mem_append, List.mem_cons] at hz
      rcases hz with hz | rfl | rfl | hz
      · exact hch z (by simp [hz])
      · exact ⟨by omega, by omega, q6⟩
      · exact ⟨by omega, by omega, q7⟩
      · exact hch z (by simp [hz])
    · rw [flat_pair (by omega), flat_pair (by omega), q2]
    · have := (List.pairwise_append.1 (sorted_parts hs).2.1).2.2 st q3 sep (by simp)
      exact this
    · have := get2 (cl := cl) (c := l') (d := c') (cr := cr) hcl
      rw [show i - 1 + 1 = i by omega] at this
      exact rich_iff.2 ⟨c', this, by omega⟩
  · rw [if_neg hL]
    by_cases hR : i < its.length ∧ rich mn cs (i + 1) = true
    · rw [if_pos hR]
      obtain ⟨hlt, hr⟩ := hR
      obtain ⟨il, sep, ir, cl, c, r, cr, rfl, rfl, hil, hcl⟩ := pair_split hc (i := i) hlt
      have hg1 : (cl ++ c :: r :: cr)[i]? = some c := get_at hcl
      have hg2 : (il ++ sep :: ir)[i]? = some sep := get_at hil
      have hg3 : (cl ++ c :: r :: cr)[i + 1]? = some r := get2 hcl
      obtain ⟨r2, hr2, hrich⟩ := rich_iff.1 hr
      rw [hg3] at hr2
      obtain rfl := Option.some.inj hr2
      have kc := hch c (by simp)
      have kr := hch r (by simp)
      have hcm := hpoor' c hg1
      obtain ⟨c', st, r', q1, q2, q3, q4, q5, q6, q7⟩ := stealRight_spec (sep := sep) kc.2.2 kr.2.2 (by omega)
      simp only [hg1, hg2, hg3, q1, Option.map_some]
      rw [set_mid hil, set2 hcl]
      rw [flat_pair (by omega)] at hs
      refine ⟨_, _, rfl, ⟨by simpa using hc, ?_⟩, ?_, by simp, by simp, Or.inr (Or.inl ⟨il, sep, st, ir, rfl, rfl, ?_, by omega, ?_⟩)⟩
      · intro z hz
        simp only [List.mem_append, List.mem_cons] at hz
        rcases hz with hz | rfl | rfl | hz
        · exact hch z (by simp [hz])
        · exact ⟨by omega, by omega, q6⟩
        · exact ⟨by omega, by omega, q7⟩
        · exact hch z (by simp [hz])
      · rw [flat_pair (by omega), flat_pair (by omega), q2]
      · have := (List.pairwise_cons.1 (List.pairwise_append.1 (sorted_parts hs).2.1).2.1).1 st q3
        exact this
      · exact rich_iff.2 ⟨c', get_at hcl, by omega⟩
    · rw [if_neg hR]
      dsimp only
      have hjlt : (if its.length ≤ i then i - 1 else i) < its.length := by split <;> omega
      obtain ⟨il, sep, ir, cl, c, r, cr, e1, e2, hil, hcl⟩ := pair_split hc hjlt
      have hcase : i = il.length ∨ (i = il.length + 1 ∧ ir = []) := by
        have hlen := congrArg List.length e1
        simp only [List.length_append, List.length_cons] at hlen
        split at hil
        · right
          refine ⟨by omega, ?_⟩
          apply List.length_eq_zero_iff.1
          omega
        · left; omega
      generalize (if its.length ≤ i then i - 1 else i) = j at hil hcl hjlt
      subst e1 e2
      have hg1 : (cl ++ c :: r :: cr)[j]? = some c := get_at hcl
      have hg2 : (il ++ sep :: ir)[j]? = some sep := get_at hil
      have hg3 : (cl ++ c :: r :: cr)[j + 1]? = some r := get2 hcl
      have kc := hch c (by simp)
      have kr := hch r (by simp)
      have hboth : (items h c).length = mn ∧ (items h r).length = mn := by
        rcases hcase with h2 | ⟨h2, h3⟩
        · have hij : i = j := by omega
          subst hij
          refine ⟨hpoor' c hg1, ?_⟩
          have : ¬ mn < (items h r).length := fun hlt => hR ⟨by simp; omega, rich_iff.2 ⟨r, hg3, hlt⟩⟩
          omega
        · have hij : i = j + 1 := by omega
          subst hij
          refine ⟨?_, hpoor' r hg3⟩
          have : ¬ mn < (items h c).length := fun hlt => hL ⟨by omega, rich_iff.2 ⟨c, by simpa using hg1, hlt⟩⟩
          omega
      obtain ⟨m1, m2, m3⟩ := merge_spec (sep := sep) kc.2.2 kr.2.2
      simp only [hg1, hg2, hg3]
      rw [erase_mid hil, set_mid hcl, erase2 hcl]
      refine ⟨_, _, rfl, ⟨by simp at hc ⊢; omega, ?_⟩, ?_, by simp; omega, by simp, Or.inr (Or.inr ⟨il, sep, ir, rfl, rfl, hcase, ?_⟩)⟩
      · intro z hz
        simp only [List.mem_append, List.mem_cons] at hz
        rcases hz with hz | rfl | hz
        · exact hch z (by simp [hz])
        · exact ⟨by omega, by omega, m3⟩
        · exact hch z (by simp [hz])
      · rw [flat_pair (by omega), flat_mid (by omega), m1]
      · exact rich_iff.2 ⟨_, get_at (by omega), by omega⟩

end Gofer.BTree
