import Verif.Proof.BTreeTop

/-! # Only the comparisons of items in the tree matter -/
namespace Gofer.BTree
open Gofer.TreeMap (Item Sorted treeGet treeDelete)

/-- Two orders that agree where `P` holds. -/
def Agree {T : Type} (P : T → Prop) (f g : T → T → Bool) : Prop := ∀ a b, P a → P b → f a b = g a b

theorem find_congr {T : Type} {P : T → Prop} {f g : T → T → Bool} (h : Agree P f g) {s : List T} {x : T} (hs : ∀ y ∈ s, P y) (hx : P x) :
    find f s x = find g s x := by
  have h1 : above f s x = above g s x := by
    funext i
    unfold above
    cases hi : s[i]? with
    | none => rfl
    | some y => exact h x y hx (hs y (List.mem_of_getElem? hi))
  have h2 : notBelow f s x = notBelow g s x := by
    funext i
    unfold notBelow
    cases hi : s[i]? with
    | none => rfl
    | some y => simp only [h y x (hs y (List.mem_of_getElem? hi)) hx]
  unfold find
  rw [h1, h2]

theorem items_P {T : Type} {P : T → Prop} {mn mx h : Nat} {n : Node T h} (hi : Inner mn mx h n) (hp : ∀ y ∈ flat h n, P y) :
    ∀ y ∈ items h n, P y := fun y hy => hp y ((items_sub hi).subset hy)

theorem child_P {T : Type} {P : T → Prop} {h : Nat} {its : List T} {cs : List (Node T h)} (hl : cs.length = its.length + 1)
    (hp : ∀ y ∈ flat (h + 1) ((its, cs) : List T × List (Node T h)), P y) {c : Node T h} (hc : c ∈ cs) : ∀ y ∈ flat h c, P y := by
  obtain ⟨cl, cr, rfl⟩ := List.append_of_mem hc
  intro y hy
  apply hp
  have hlen : cl.length ≤ its.length := by simp at hl; omega
  have e := flat_mid (cl := cl) (c := c) (cr := cr) (il := its.take cl.length) (ir := its.drop cl.length)
    (by rw [List.length_take]; omega)
  rw [List.take_append_drop] at e
  rw [e]; simp [hy]

theorem insert_congr {T : Type} {P : T → Prop} {f g : T → T → Bool} (hfg : Agree P f g) {mn mx : Nat} (hmx : 1 ≤ mx) (h : Nat) :
    ∀ (n : Node T h) (x : T), Inner mn mx h n → (∀ y ∈ flat h n, P y) → P x → insert f mx h n x = insert g mx h n x := by
  induction h with
  | zero =>
    intro n x _ hp hx
    have key : ∀ s : List T, (∀ y ∈ s, P y) → insert f mx 0 s x = insert g mx 0 s x := by
      intro s hs
      simp only [insert]
      rw [find_congr hfg hs hx]
    exact key n hp
  | succ h ih =>
    rintro ⟨its, cs⟩ x hi hp hx
    have hi0 := hi
    obtain ⟨h1, h2⟩ := hi
    have hits : ∀ y ∈ its, P y := items_P hi0 hp
    simp only [insert]
    rw [find_congr hfg hits hx]
    cases hf : find g its x with
    | mk i found =>
      cases found with
      | true => rfl
      | false =>
        simp only [Bool.false_eq_true, if_false]
        cases hc : cs[i]? with
        | none => rfl
        | some c =>
          have hcm := List.mem_of_getElem? hc
          have hcp := child_P h1 hp hcm
          simp only
          by_cases hlt : (items h c).length < mx
          · rw [if_pos hlt, if_pos hlt, ih c x (h2 c hcm).2.2 hcp hx]
          · rw [if_neg hlt, if_neg hlt]
            obtain ⟨a, m, b, p1, p2, p3, p4, p5, p6⟩ := split_spec (i := mx / 2) (h2 c hcm).2.2 (by omega)
            rw [p2] at hcp
            have hm : P m := hcp m (by simp)
            simp only [p1]
            rw [hfg x m hx hm, hfg m x hm hx, ih a x p5 (fun y hy => hcp y (by simp [hy])) hx,
              ih b x p6 (fun y hy => hcp y (by simp [hy])) hx]

theorem nodeGet_congr {T : Type} {P : T → Prop} {f g : T → T → Bool} (hfg : Agree P f g) {mn mx : Nat} (h : Nat) :
    ∀ (n : Node T h) (x : T), Inner mn mx h n → (∀ y ∈ flat h n, P y) → P x → nodeGet f h n x = nodeGet g h n x := by
  induction h with
  | zero =>
    intro n x _ hp hx
    have key : ∀ s : List T, (∀ y ∈ s, P y) → nodeGet f 0 s x = nodeGet g 0 s x := by
      intro s hs
      simp only [nodeGet]
      rw [find_congr hfg hs hx]
    exact key n hp
  | succ h ih =>
    rintro ⟨its, cs⟩ x hi hp hx
    have hi0 := hi
    obtain ⟨h1, h2⟩ := hi
    have hits : ∀ y ∈ its, P y := items_P hi0 hp
    simp only [nodeGet]
    rw [find_congr hfg hits hx]
    cases hf : find g its x with
    | mk i found =>
      cases found with
      | true => rfl
      | false =>
        simp only [Bool.false_eq_true, if_false]
        cases hc : cs[i]? with
        | none => rfl
        | some c =>
          have hcm := List.mem_of_getElem? hc
          exact ih c x (h2 c hcm).2.2 (child_P h1 hp hcm) hx

variable {K V : Type} [LinearOrder K]

theorem grow_nil {T : Type} {mn h : Nat} {cs : List (Node T h)} : grow mn [] cs 0 = none := by
  simp [grow]

theorem place_idx (typ : Option (Item K V)) (its : List (Item K V)) :
    (target lt its typ).1 = place its typ := by
  cases typ <;> rfl

theorem remove_congr {P : Item K V → Prop} {f : Item K V → Item K V → Bool} (hfg : Agree P f lt) {mn mx : Nat}
    (hmx : mx = 2 * mn + 1) (hmn : 1 ≤ mn) (h : Nat) :
    ∀ (n : Node (Item K V) h) (typ : Option (Item K V)), Inner mn mx h n → Sorted (flat h n) → (∀ y ∈ flat h n, P y) →
      (∀ x, typ = some x → P x) → remove f mn h n typ = remove lt mn h n typ := by
  induction h with
  | zero =>
    intro n typ _ _ hp hx
    cases typ with
    | none => rfl
    | some x =>
      have key : ∀ s : List (Item K V), (∀ y ∈ s, P y) → remove f mn 0 s (some x) = remove lt mn 0 s (some x) := by
        intro s hs
        simp only [remove]
        rw [find_congr hfg hs (hx x rfl)]
      exact key n hp
  | succ h ih =>
    have loop : ∀ fuel its (cs : List (Node (Item K V) h)) typ, Inner mn mx (h + 1) (its, cs) → Sorted (flat (h + 1) (its, cs)) →
        (∀ y ∈ flat (h + 1) (its, cs), P y) → (∀ x, typ = some x → P x) →
        removeIn f mn (remove f mn h) fuel (its, cs) typ = removeIn lt mn (remove lt mn h) fuel (its, cs) typ := by
      intro fuel
      induction fuel with
      | zero => intros; rfl
      | succ fuel ihf =>
        intro its cs typ hi hs hp hx
        have hi0 := hi
        have hsi : Sorted its := sorted_items hi hs
        obtain ⟨h1, h2⟩ := hi
        have hits : ∀ y ∈ its, P y := items_P hi0 hp
        have hfind : target f its typ = target lt its typ := by
          cases typ with
          | none => rfl
          | some x => exact find_congr hfg hits (hx x rfl)
        simp only [removeIn]
        rw [hfind]
        have hpl := place_idx typ its
        have hple := place_le hsi typ
        cases hm : target lt its typ with
        | mk i found =>
          rw [hm] at hpl
          simp only at hpl ⊢
          subst hpl
          cases hc : cs[place its typ]? with
          | none => rfl
          | some c =>
            have hcm := List.mem_of_getElem? hc
            have hcp := child_P h1 hp hcm
            have hcs : Sorted (flat h c) := by
              obtain ⟨cl, cr, e⟩ := List.append_of_mem hcm
              subst e
              have hlen : cl.length ≤ its.length := by simp at h1; omega
              have e := flat_mid (cl := cl) (c := c) (cr := cr) (il := its.take cl.length) (ir := its.drop cl.length)
                (by rw [List.length_take]; omega)
              rw [List.take_append_drop] at e
              rw [e] at hs
              exact (sorted_parts hs).2.1
            simp only
            by_cases hle : (items h c).length ≤ mn
            · rw [if_pos hle, if_pos hle]
              by_cases h0 : its.length = 0
              · have : its = [] := List.length_eq_zero_iff.1 h0
                subst this
                have hz : place ([] : List (Item K V)) typ = 0 := by simpa using hple
                rw [hz, grow_nil]
              · have hpoor : rich mn cs (place its typ) = false := by
                  rw [Bool.eq_false_iff]
                  intro hr
                  obtain ⟨c', hc', hlt⟩ := rich_iff.1 hr
                  rw [hc] at hc'
                  obtain rfl := Option.some.inj hc'
                  omega
                obtain ⟨its', cs', g1, g2, g3, _⟩ := grow_spec hmx hi0 hs hple (by omega) hpoor
                rw [g1]
                exact ihf its' cs' typ g2 (by rw [g3]; exact hs) (by rw [g3]; exact hp) hx
            · rw [if_neg hle, if_neg hle, ih c none (h2 c hcm).2.2 hcs hcp (by simp), ih c typ (h2 c hcm).2.2 hcs hcp hx]
    rintro ⟨its, cs⟩ typ hi hs hp hx
    exact loop _ its cs typ hi hs hp hx

theorem roi_congr {T : Type} {P : T → Prop} {f g : T → T → Bool} (hfg : Agree P f g) {d : Nat} (hd : 2 ≤ d) {t : BT T} {s : List T}
    (hg : Good d t s) (hp : ∀ y ∈ s, P y) {x : T} (hx : P x) : replaceOrInsert f t x = replaceOrInsert g t x := by
  obtain ⟨dg, root, len⟩ := t
  obtain ⟨g1, g2, g3, g4⟩ := hg
  simp only at g1 g2 g3 g4
  subst g1
  cases root with
  | none => rfl
  | some r =>
    obtain ⟨h, n⟩ := r
    obtain ⟨h', n', r1, r2, r3, r4, r5⟩ := room_spec hd (g4 h n rfl)
    have := insert_congr hfg (mn := dg - 1) (mx := dg * 2 - 1) (by omega) h' n' x (by rw [Nat.mul_comm]; exact r2)
      (by rw [r3]; exact hp) hx
    simp only [replaceOrInsert, BT.maxItems, r1, Option.bind_some, this]

theorem get_congr {T : Type} {P : T → Prop} {f g : T → T → Bool} (hfg : Agree P f g) {d : Nat} {t : BT T} {s : List T}
    (hg : Good d t s) (hp : ∀ y ∈ s, P y) {x : T} (hx : P x) : get f t x = get g t x := by
  obtain ⟨dg, root, len⟩ := t
  obtain ⟨g1, g2, g3, g4⟩ := hg
  simp only at g1 g2 g3 g4
  cases root with
  | none => rfl
  | some r =>
    obtain ⟨h, n⟩ := r
    obtain ⟨q1, q2, q3, q4⟩ := g4 h n rfl
    subst q2
    exact nodeGet_congr hfg h n x q1 hp hx

theorem del_congr {P : Item K V → Prop} {f : Item K V → Item K V → Bool} (hfg : Agree P f lt) {d : Nat} (hd : 2 ≤ d)
    {t : BT (Item K V)} {s : List (Item K V)} (hg : Good d t s) (hs : Sorted s) (hp : ∀ y ∈ s, P y) {x : Item K V} (hx : P x) :
    delete f t x = delete lt t x := by
  obtain ⟨dg, root, len⟩ := t
  obtain ⟨g1, g2, g3, g4⟩ := hg
  simp only at g1 g2 g3 g4
  subst g1
  cases root with
  | none => rfl
  | some r =>
    obtain ⟨h, n⟩ := r
    obtain ⟨q1, q2, q3, q4⟩ := g4 h n rfl
    subst q2
    have := remove_congr hfg (mn := dg - 1) (mx := 2 * dg - 1) (by omega) (by omega) h n (some x) q1 hs hp
      (by intro y e; cases e; exact hx)
    simp only [delete, BT.minItems, this]

end Gofer.BTree
