import Verif.Proof.RegexpParse
/-!
# How big programs get
-/
namespace Gofer.Regexp
open Gofer.Spec.Json (Bytes)
open Gofer.Spec.Regexp (Item)

/-! ## Programs of trees -/

/-- Instructions made by `compile`, at most. -/
def insts : Tree → Nat
  | .cap _ t => insts t + 2
  | .star _ t => insts t + 2
  | .plus _ t => insts t + 1
  | .quest _ t => insts t + 1
  | .rep _ _ _ t => insts t
  | .cat a b => insts a + insts b
  | .alt a b => insts a + insts b + 1
  | _ => 1

theorem compile_length : ∀ (t : Tree) (p : Prog), (compile t p).1.length ≤ p.length + insts t
  | .empty, p => by simp [compile, emit, insts]
  | .test _, p => by simp [compile, emit, insts]
  | .place _, p => by simp [compile, emit, insts]
  | .cap n t, p => by
    have := compile_length t (emit p (.cap (2 * n) 0) true).1
    simp only [compile, cat, emit, patch_length, List.length_append, List.length_cons, List.length_nil, insts] at this ⊢
    omega
  | .star l t, p => by
    have := compile_length t p
    simp only [compile, star, insts]
    split
    · simp only [quest, plus, loop]
      cases l <;> simp [patch_length] <;> omega
    · simp only [loop]
      cases l <;> simp [patch_length] <;> omega
  | .plus l t, p => by
    have := compile_length t p
    simp only [compile, plus, loop, insts]
    cases l <;> simp [patch_length] <;> omega
  | .quest l t, p => by
    have := compile_length t p
    simp only [compile, quest, insts]
    cases l <;> simp <;> omega
  | .rep _ _ _ t, p => compile_length t p
  | .cat a b, p => by
    have h1 := compile_length a p
    have h2 := compile_length b (compile a p).1
    simp only [compile, cat, patch_length, insts]
    omega
  | .alt a b, p => by
    have h1 := compile_length a p
    have h2 := compile_length b (compile a p).1
    simp only [compile, alt, List.length_append, List.length_cons, List.length_nil, insts]
    omega

/-- Nodes of a tree. -/
def nodes : Tree → Nat
  | .cap _ t => nodes t + 1
  | .star _ t => nodes t + 1
  | .plus _ t => nodes t + 1
  | .quest _ t => nodes t + 1
  | .rep _ _ _ t => nodes t + 1
  | .cat a b => nodes a + nodes b + 1
  | .alt a b => nodes a + nodes b + 1
  | _ => 1

theorem insts_pos : ∀ (t : Tree), 1 ≤ insts t
  | .empty => Nat.le_refl 1
  | .test _ => Nat.le_refl 1
  | .place _ => Nat.le_refl 1
  | .cap _ t => by simp only [insts]; omega
  | .star _ t => by simp only [insts]; omega
  | .plus _ t => by simp only [insts]; omega
  | .quest _ t => by simp only [insts]; omega
  | .rep _ _ _ t => insts_pos t
  | .cat a b => by have := insts_pos a; simp only [insts]; omega
  | .alt a b => by simp only [insts]; omega

theorem insts_star1 (l : Bool) (t : Tree) : insts (star1 l t) ≤ insts t + 2 := by
  unfold star1
  split
  · simp [insts]
  · split <;> simp [insts]
  · simp [insts]

theorem insts_plus1 (l : Bool) (t : Tree) : insts (plus1 l t) ≤ insts t + 1 := by
  unfold plus1
  split
  · simp [insts]
  · split <;> simp [insts]
  · simp [insts]

theorem insts_quest1 (l : Bool) (t : Tree) : insts (quest1 l t) ≤ insts t + 1 := by
  unfold quest1
  split
  · simp [insts]
  · split <;> simp [insts]
  · simp [insts]

theorem insts_copies (t : Tree) : ∀ n, insts (copies n t) ≤ max 1 (n * insts t)
  | 0 => by simp [copies, insts]
  | 1 => by simp [copies]
  | n + 2 => by
    have ih := insts_copies t (n + 1)
    have := insts_pos t
    simp only [copies, insts]
    rw [Nat.add_mul (n + 1) 1, Nat.one_mul]
    have : insts t ≤ (n + 1) * insts t := Nat.le_mul_of_pos_left _ (by omega)
    omega

theorem insts_nest (l : Bool) (t : Tree) : ∀ n, insts (nest l t n) ≤ (n + 1) * (insts t + 1)
  | 0 => by have := insts_quest1 l t; simp only [nest]; omega
  | n + 1 => by
    have ih := insts_nest l t n
    have := insts_quest1 l (.cat t (nest l t n))
    simp only [nest, insts] at this ⊢
    rw [Nat.add_mul (n + 1) 1, Nat.one_mul]
    omega

theorem insts_expand (lo : Nat) (hi : Option Nat) (l : Bool) (t : Tree) (hh : ∀ m ∈ hi, lo ≤ m) (hz : hi ≠ some 0) : insts (expand lo hi l t) ≤ max 1 (hi.getD lo) * (insts t + 2) := by
  have hp := insts_pos t
  unfold expand
  cases hi with
  | none =>
    show insts (if lo = 0 then star1 l t else if lo = 1 then plus1 l t else .cat (copies (lo - 1) t) (plus1 l t)) ≤ max 1 lo * (insts t + 2)
    split
    · rename_i h0
      subst h0
      have := insts_star1 l t
      simpa using this
    · split
      · rename_i h1
        subst h1
        have := insts_plus1 l t
        simp only [Nat.max_self, Nat.one_mul]
        omega
      · rename_i h0 h1
        have h2 := insts_copies t (lo - 1)
        have h3 := insts_plus1 l t
        simp only [insts]
        obtain ⟨k, rfl⟩ : ∃ k, lo = k + 2 := ⟨lo - 2, by omega⟩
        rw [show max 1 (k + 2) = k + 1 + 1 by omega, Nat.add_mul (k + 1) 1, Nat.one_mul, Nat.mul_add (k + 1)]
        simp only [show k + 2 - 1 = k + 1 by omega] at h2 ⊢
        have h4 : 1 ≤ (k + 1) * insts t := Nat.mul_pos (by omega) hp
        omega
  | some m =>
    have hle := hh m rfl
    have hm : m ≠ 0 := fun h => hz (by rw [h])
    simp only [Option.getD_some]
    split
    · rename_i h0
      exact absurd h0.2 hm
    · have e : max 1 m = m := by omega
      rw [e]
      split
      · rename_i h1
        rw [h1.2]
        omega
      · split
        · rename_i hlt
          split
          · have := insts_nest l t (m - 1)
            rw [show m - 1 + 1 = m by omega] at this
            have h4 : m * (insts t + 1) ≤ m * (insts t + 2) := Nat.mul_le_mul_left _ (by omega)
            omega
          · have h1 := insts_nest l t (m - lo - 1)
            have h2 := insts_copies t lo
            simp only [insts]
            obtain ⟨d, rfl⟩ : ∃ d, m = lo + (d + 1) := ⟨m - lo - 1, by omega⟩
            rw [show lo + (d + 1) - lo - 1 = d by omega] at h1 ⊢
            rw [Nat.add_mul]
            have h3 : (d + 1) * (insts t + 1) ≤ (d + 1) * (insts t + 2) := Nat.mul_le_mul_left _ (by omega)
            have h4 : lo * insts t ≤ lo * (insts t + 2) := Nat.mul_le_mul_left _ (by omega)
            have h5 : 1 ≤ lo * insts t := Nat.mul_pos (by omega) hp
            omega
        · have : lo = m := by omega
          subst this
          have h2 := insts_copies t lo
          have h4 : lo * insts t ≤ lo * (insts t + 2) := Nat.mul_le_mul_left _ (by omega)
          have h5 : 1 ≤ lo * insts t := Nat.mul_pos (by omega) hp
          omega

theorem nodes_pos : ∀ (t : Tree), 1 ≤ nodes t
  | .empty => Nat.le_refl 1
  | .test _ => Nat.le_refl 1
  | .place _ => Nat.le_refl 1
  | .cap _ t => by simp only [nodes]; omega
  | .star _ t => by simp only [nodes]; omega
  | .plus _ t => by simp only [nodes]; omega
  | .quest _ t => by simp only [nodes]; omega
  | .rep _ _ _ t => by simp only [nodes]; omega
  | .cat a b => by simp only [nodes]; omega
  | .alt a b => by simp only [nodes]; omega

/-- Programs are not bigger than what nested counts make of the nodes. -/
theorem insts_simplify : ∀ (t : Tree), Ordered t → insts (simplify t) ≤ wt t * (2 * nodes t)
  | .empty, _ => by simp [simplify, insts, wt, nodes]
  | .test _, _ => by simp [simplify, insts, wt, nodes]
  | .place _, _ => by simp [simplify, insts, wt, nodes]
  | .cap _ t, h => by
    have ih := insts_simplify t h
    have hp := wt_pos t
    simp only [simplify, insts, wt, nodes, Nat.mul_add]
    omega
  | .star l t, h => by
    have ih := insts_simplify t h
    have hp := wt_pos t
    have := insts_star1 l (simplify t)
    simp only [simplify, wt, nodes, Nat.mul_add]
    omega
  | .plus l t, h => by
    have ih := insts_simplify t h
    have hp := wt_pos t
    have := insts_plus1 l (simplify t)
    simp only [simplify, wt, nodes, Nat.mul_add]
    omega
  | .quest l t, h => by
    have ih := insts_simplify t h
    have hp := wt_pos t
    have := insts_quest1 l (simplify t)
    simp only [simplify, wt, nodes, Nat.mul_add]
    omega
  | .rep lo hi l t, h => by
    have ih := insts_simplify t h.2
    have hp := wt_pos t
    simp only [simplify, wt, nodes]
    split
    · rename_i h0
      subst h0
      have : lo = 0 := by have := h.1 0 rfl; omega
      subst this
      simp [expand, insts]
      omega
    · rename_i h0
      have he := insts_expand lo hi l (simplify t) h.1 h0
      refine Nat.le_trans he ?_
      rw [Nat.mul_assoc]
      refine Nat.mul_le_mul_left _ ?_
      simp only [Nat.mul_add]
      omega
  | .cat a b, h => by
    have h1 := insts_simplify a h.1
    have h2 := insts_simplify b h.2
    simp only [simplify, insts, wt, nodes]
    have h3 : wt a * (2 * nodes a) ≤ max (wt a) (wt b) * (2 * nodes a) := Nat.mul_le_mul_right _ (by omega)
    have h4 : wt b * (2 * nodes b) ≤ max (wt a) (wt b) * (2 * nodes b) := Nat.mul_le_mul_right _ (by omega)
    simp only [Nat.mul_add]
    omega
  | .alt a b, h => by
    have h1 := insts_simplify a h.1
    have h2 := insts_simplify b h.2
    have hp := wt_pos a
    simp only [simplify, insts, wt, nodes]
    have h3 : wt a * (2 * nodes a) ≤ max (wt a) (wt b) * (2 * nodes a) := Nat.mul_le_mul_right _ (by omega)
    have h4 : wt b * (2 * nodes b) ≤ max (wt a) (wt b) * (2 * nodes b) := Nat.mul_le_mul_right _ (by omega)
    simp only [Nat.mul_add]
    omega

/-! ## Rounds of the parser take something from the text -/

theorem octal_le : ∀ (k r : Nat) (t : List Nat), (octal k r t).2.length ≤ t.length
  | 0, _, _ => Nat.le_refl _
  | k + 1, r, [] => Nat.le_refl _
  | k + 1, r, d :: t => by
    simp only [octal]
    split
    · have := octal_le k (r * 8 + (d - 48)) t
      simp only [List.length_cons]
      omega
    · simp

theorem hexBrace_lt : ∀ (t : List Nat) (n : Nat) (saw : Bool) (c : Nat) (r : List Nat), hexBrace n saw t = some (c, r) → r.length < t.length
  | [], _, _, _, _, h => by simp [hexBrace] at h
  | x :: t, n, saw, c, r, h => by
    simp only [hexBrace] at h
    split at h
    · split at h
      · simp only [Option.some.injEq, Prod.mk.injEq] at h
        simp [h.2]
      · cases h
    · split at h
      · cases h
      · split at h
        · cases h
        · have := hexBrace_lt t _ _ _ _ h
          simp only [List.length_cons]
          omega

theorem hexEscape_lt (t : List Nat) (c : Nat) (r : List Nat) (h : hexEscape t = some (c, r)) : r.length < t.length := by
  unfold hexEscape at h
  split at h
  · cases h
  · split at h
    · have := hexBrace_lt _ _ _ _ _ h
      simp only [List.length_cons]
      omega
    · split at h
      · cases h
      · split at h
        · simp only [Option.some.injEq, Prod.mk.injEq] at h
          simp only [← h.2, List.length_cons]
          omega
        · cases h

theorem escape_lt (t : List Nat) (c : Nat) (r : List Nat) (h : escape t = some (c, r)) : r.length < t.length := by
  unfold escape at h
  split at h
  · cases h
  · rename_i x t
    simp only [List.length_cons]
    split at h
    · split at h
      · rename_i d t' 
        split at h
        · have := octal_le 2 (x - 48) (d :: t')
          simp only [Option.some.injEq] at h
          rw [h] at this
          simp only [List.length_cons] at this ⊢
          omega
        · cases h
      · cases h
    · split at h
      · have := octal_le 2 0 t
        simp only [Option.some.injEq] at h
        rw [h] at this
        simp only at this
        omega
      · split at h
        · have := hexEscape_lt _ _ _ h
          omega
        · repeat' split at h
          all_goals first
            | cases h; omega
            | cases h

theorem classChar_lt (t : List Nat) (c : Nat) (r : List Nat) (h : classChar t = some (c, r)) : r.length < t.length := by
  unfold classChar at h
  split at h
  · cases h
  · simp only [List.length_cons]
    split at h
    · have := escape_lt _ _ _ h
      omega
    · cases h; omega

theorem classRange_lt (t : List Nat) (x : Item) (r : List Nat) (h : classRange t = some (x, r)) : r.length < t.length := by
  unfold classRange at h
  split at h
  · cases h
  · rename_i lo t' e
    have h1 := classChar_lt _ _ _ e
    split at h
    · split at h
      · cases h
      · rename_i hi t2 e2
        have h2 := classChar_lt _ _ _ e2
        rw [List.length_tail] at h2
        split at h
        · cases h
        · cases h; omega
    · cases h; omega

theorem classLoop_le : ∀ (f : Nat) (first : Bool) (acc : List Item) (t : List Nat) (l : List Item) (r : List Nat), classLoop f first acc t = .ok (l, r) → r.length ≤ t.length
  | 0, _, _, _, _, _, h => by simp [classLoop] at h
  | f + 1, first, acc, t, l, r, h => by
    simp only [classLoop] at h
    split at h
    · cases h
      rw [List.length_tail]
      omega
    · split at h
      · cases h
      · split at h
        · cases h
        · split at h
          · have := classLoop_le f _ _ _ _ _ h
            rw [List.length_drop] at this
            omega
          · split at h
            · cases h
            · rename_i x t' e
              have h1 := classRange_lt _ _ _ e
              have := classLoop_le f _ _ _ _ _ h
              omega

theorem parseClass_le (t : List Nat) (x : Bool × List Item × List Nat) (h : parseClass t = .ok x) : x.2.2.length ≤ t.length := by
  simp only [parseClass] at h
  generalize hu : (if t.head? = some 94 then t.tail else t) = u at h
  have hl : u.length ≤ t.length := by
    rw [← hu]
    split
    · rw [List.length_tail]; omega
    · omega
  cases e : classLoop (u.length + 1) true [] u with
  | error _ => rw [e] at h; cases h
  | ok y =>
    rw [e] at h
    cases h
    have := classLoop_le _ _ _ _ y.1 y.2 e
    simp only
    omega

theorem flagLoop_lt : ∀ (t : List Nat) (fl : Flags) (minus saw : Bool) (fl' : Flags) (g : Bool) (r : List Nat), flagLoop fl minus saw t = some (fl', g, r) → r.length < t.length
  | [], _, _, _, _, _, _, h => by simp [flagLoop] at h
  | c :: t, fl, minus, saw, fl', g, r, h => by
    simp only [flagLoop] at h
    simp only [List.length_cons]
    split at h
    · have := flagLoop_lt t _ _ _ _ _ _ h; omega
    · split at h
      · have := flagLoop_lt t _ _ _ _ _ _ h; omega
      · split at h
        · have := flagLoop_lt t _ _ _ _ _ _ h; omega
        · split at h
          · have := flagLoop_lt t _ _ _ _ _ _ h; omega
          · split at h
            · split at h
              · cases h
              · have := flagLoop_lt t _ _ _ _ _ _ h; omega
            · split at h
              · split at h
                · cases h
                · cases h; omega
              · cases h

theorem parseInt_lt (t : List Nat) (n : Option Nat) (r : List Nat) (h : parseInt t = some (n, r)) : r.length ≤ t.length := by
  simp only [parseInt] at h
  split at h
  · cases h
  · split at h
    · cases h
    · cases h
      exact (List.dropWhile_sublist _).length_le

theorem parseRepeat_le (t : List Nat) (x : Option (Nat × Option Nat)) (r : List Nat) (h : parseRepeat t = some (x, r)) : r.length ≤ t.length := by
  unfold parseRepeat at h
  split at h
  · cases h
  · rename_i e
    have := parseInt_lt _ _ _ e
    cases h
    simp only [List.length_cons] at this
    omega
  · rename_i e
    have := parseInt_lt _ _ _ e
    split at h
    · rename_i e2
      have := parseInt_lt _ _ _ e2
      cases h
      simp only [List.length_cons] at *
      omega
    · cases h
  · rename_i e
    have := parseInt_lt _ _ _ e
    cases h
    simp only [List.length_cons] at this
    omega
  · cases h

/-! ## What the parser keeps -/

def Cell.size : Cell → Nat
  | .tree t => nodes t + 1
  | .bar => 2
  | .paren _ _ => 3

def size (s : List Cell) : Nat := (s.map Cell.size).sum

def Cell.Fine : Cell → Prop
  | .tree t => Ordered t ∧ wt t ≤ 1000
  | _ => True

def Fine (s : List Cell) : Prop := ∀ x ∈ s, x.Fine

theorem size_cons (x : Cell) (s : List Cell) : size (x :: s) = x.size + size s := by simp [size]

theorem trees_split (s : List Cell) : s = (trees s).1.map .tree ++ (trees s).2 := by
  induction s with
  | nil => rfl
  | cons x s ih =>
    cases x with
    | tree t => simp only [trees, List.map_cons, List.cons_append]; rw [← ih]
    | bar => rfl
    | paren => rfl

theorem size_append (a b : List Cell) : size (a ++ b) = size a + size b := by simp [size]

theorem join_nodes (f : Tree → Tree → Tree) (hf : ∀ a b, nodes (f a b) = nodes a + nodes b + 1) (J : List Tree → Tree) (h0 : J [] = .empty) (h1 : ∀ t, J [t] = t) (h2 : ∀ t u l, J (t :: u :: l) = f (J (u :: l)) t) :
    ∀ l : List Tree, nodes (J l) + 1 ≤ size (l.map .tree) + (if l = [] then 2 else 0)
  | [] => by rw [h0]; simp [nodes, size]
  | [t] => by rw [h1]; simp [size, Cell.size]
  | t :: u :: l => by
    have := join_nodes f hf J h0 h1 h2 (u :: l)
    rw [h2, hf]
    simp only [List.map_cons, size_cons, Cell.size, if_neg (List.cons_ne_nil _ _)] at this ⊢
    omega

theorem join_fine (f : Tree → Tree → Tree) (ho : ∀ a b, Ordered a → Ordered b → Ordered (f a b)) (hw : ∀ a b, wt (f a b) = max (wt a) (wt b)) (J : List Tree → Tree) (h0 : J [] = .empty) (h1 : ∀ t, J [t] = t) (h2 : ∀ t u l, J (t :: u :: l) = f (J (u :: l)) t) :
    ∀ l : List Tree, Fine (l.map .tree) → Cell.Fine (.tree (J l))
  | [], _ => by rw [h0]; exact ⟨trivial, by simp [wt]⟩
  | [t], h => by rw [h1]; exact h _ (by simp)
  | t :: u :: l, h => by
    have ih := join_fine f ho hw J h0 h1 h2 (u :: l) fun x hx => h x (List.mem_cons_of_mem _ hx)
    have ht : Cell.Fine (.tree t) := h _ List.mem_cons_self
    rw [h2]
    refine ⟨ho _ _ ih.1 ht.1, ?_⟩
    rw [hw]
    have := ih.2
    have := ht.2
    omega

theorem concat_size (s : List Cell) : size (concat s) ≤ size s + 2 ∧ (Fine s → Fine (concat s)) := by
  have e := trees_split s
  unfold concat
  constructor
  · have := join_nodes .cat (fun _ _ => rfl) joinCat rfl (fun _ => rfl) (fun _ _ _ => rfl) (trees s).1
    rw [size_cons, Cell.size]
    have hs : size s = size ((trees s).1.map .tree) + size (trees s).2 := by rw [← size_append, ← e]
    split at this <;> omega
  · intro h x hx
    rw [e] at h
    rcases List.mem_cons.1 hx with rfl | hx
    · exact join_fine .cat (fun _ _ ha hb => ⟨ha, hb⟩) (fun _ _ => rfl) joinCat rfl (fun _ => rfl) (fun _ _ _ => rfl) _ fun y hy => h y (List.mem_append_left _ hy)
    · exact h x (List.mem_append_right _ hx)

theorem alternate_size (s : List Cell) (hne : ∃ t s', s = .tree t :: s') : size (alternate s) ≤ size s ∧ (Fine s → Fine (alternate s)) := by
  have e := trees_split s
  have hn : (trees s).1 ≠ [] := by
    obtain ⟨t, s', rfl⟩ := hne
    simp [trees]
  unfold alternate
  constructor
  · have := join_nodes .alt (fun _ _ => rfl) joinAlt rfl (fun _ => rfl) (fun _ _ _ => rfl) (trees s).1
    rw [size_cons, Cell.size]
    have hs : size s = size ((trees s).1.map .tree) + size (trees s).2 := by rw [← size_append, ← e]
    rw [if_neg hn] at this
    omega
  · intro h x hx
    rw [e] at h
    rcases List.mem_cons.1 hx with rfl | hx
    · exact join_fine .alt (fun _ _ ha hb => ⟨ha, hb⟩) (fun _ _ => rfl) joinAlt rfl (fun _ => rfl) (fun _ _ _ => rfl) _ fun y hy => h y (List.mem_append_left _ hy)
    · exact h x (List.mem_append_right _ hx)

theorem swap_size (s : List Cell) : size (swapBar s).1 = size s ∧ (Fine s → Fine (swapBar s).1) ∧ ((swapBar s).2 = true → ∃ x s', s = x :: .bar :: s' ∧ (swapBar s).1 = .bar :: x :: s') ∧ ((swapBar s).2 = false → (swapBar s).1 = s) := by
  unfold swapBar
  split
  · rename_i x s
    refine ⟨?_, ?_, fun _ => ⟨x, s, rfl, rfl⟩, nofun⟩
    · simp only [size_cons]; omega
    · intro h y hy
      refine h y ?_
      simp only [List.mem_cons] at hy ⊢
      rcases hy with h | h | h
      · exact .inr (.inl h)
      · exact .inl h
      · exact .inr (.inr h)
  · exact ⟨rfl, id, nofun, fun _ => rfl⟩

theorem verticalBar_size (s : List Cell) : size (verticalBar s) ≤ size s + 4 ∧ (Fine s → Fine (verticalBar s)) := by
  obtain ⟨h1, h2⟩ := concat_size s
  obtain ⟨h3, h4, _⟩ := swap_size (concat s)
  unfold verticalBar
  simp only
  split
  · exact ⟨by omega, fun h => h4 (h2 h)⟩
  · refine ⟨by rw [size_cons]; simp only [Cell.size]; omega, fun h x hx => ?_⟩
    rcases List.mem_cons.1 hx with rfl | hx
    · trivial
    · exact h4 (h2 h) x hx

theorem close_size (s : List Cell) : size (close s) ≤ size s + 2 ∧ (Fine s → Fine (close s)) := by
  obtain ⟨h1, h2⟩ := concat_size s
  obtain ⟨h3, h4, h5, h6⟩ := swap_size (concat s)
  unfold close
  simp only
  split
  · rename_i hx
    obtain ⟨x, s', e1, e2⟩ := h5 hx
    have hx' : x = .tree (joinCat (trees s).1) := by
      unfold concat at e1
      exact (List.cons.inj e1).1.symm
    rw [e2] at h3 h4 ⊢
    simp only [List.tail_cons]
    have ha := alternate_size (x :: s') ⟨_, _, by rw [hx']⟩
    rw [size_cons] at h3
    exact ⟨by omega, fun h => ha.2 fun y hy => h4 (h2 h) y (List.mem_cons_of_mem _ hy)⟩
  · rename_i hx
    have hx := h6 (by simpa using hx)
    rw [hx] at h3 h4 ⊢
    have ha := alternate_size (concat s) ⟨_, _, rfl⟩
    exact ⟨by omega, fun h => ha.2 (h2 h)⟩

/-- What a round keeps: the text gets shorter, the stack grows by four at most, counts stay within 1000. -/
def Kept (p : P) (n : Nat) (y : P × List Nat) : Prop := y.2.length < n ∧ size y.1.stack ≤ size p.stack + 4 ∧ (Fine p.stack → Fine y.1.stack)

theorem kept_push (p : P) (n : Nat) (x : Cell) (t : List Nat) (fl : Flags) (k : Nat) (ag : Bool) (ht : t.length < n) (hs : x.size ≤ 4) (hx : x.Fine) : Kept p n (⟨x :: p.stack, fl, k, ag⟩, t) :=
  ⟨ht, by rw [size_cons]; omega, fun h y hy => (List.mem_cons.1 hy).elim (fun e => e ▸ hx) (h y)⟩

theorem test_fine (t : Test) : (Cell.tree (.test t)).size ≤ 4 ∧ (Cell.tree (.test t)).Fine := ⟨by simp [Cell.size, nodes], trivial, by simp [wt]⟩
theorem place_fine (x : Spec.Regexp.Place) : (Cell.tree (.place x)).size ≤ 4 ∧ (Cell.tree (.place x)).Fine := ⟨by simp [Cell.size, nodes], trivial, by simp [wt]⟩

theorem repeatOp_kept (p : P) (op : Bool → Tree → Tree) (check : Bool) (t : List Nat) (y : P × List Nat) (hn : ∀ l t, nodes (op l t) = nodes t + 1) (ho : ∀ l t, Ordered t → Ordered (op l t))
    (hw : check = false → ∀ l t, wt (op l t) ≤ wt t) (h : repeatOp p op check t = .ok y) : Kept p (t.length + 1) y := by
  unfold repeatOp at h
  by_cases ha : p.again = true
  · simp [ha] at h
  · simp only [if_neg ha] at h
    split at h
    · rename_i u s e
      generalize (if t.head? = some 63 then !p.flags.nonGreedy else p.flags.nonGreedy) = lz at h
      by_cases hc : (check && !repeatIsValid (op lz u) 1000) = true
      · rw [if_pos hc] at h; cases h
      · rw [if_neg hc] at h
        simp only [Except.ok.injEq] at h
        subst h
        refine ⟨?_, ?_, ?_⟩
        · simp only
          split
          · rw [List.length_tail]; omega
          · omega
        · simp only [e, size_cons, Cell.size, hn]
          omega
        · intro hf x hx
          rw [e] at hf
          have hu : Cell.Fine (.tree u) := hf _ List.mem_cons_self
          rcases List.mem_cons.1 hx with rfl | hx
          · refine ⟨ho _ _ hu.1, ?_⟩
            cases check
            · have := hw rfl lz u
              have := hu.2
              omega
            · refine (valid_iff _ 1000 (by omega)).1 ?_
              simpa using hc
          · exact hf x (List.mem_cons_of_mem _ hx)
    · cases h

theorem brace_kept (p : P) (t : List Nat) (y : P × List Nat) (h : brace p t = .ok y) : Kept p (t.length + 1) y := by
  unfold brace at h
  split at h
  · cases h
    exact kept_push p _ _ _ _ _ _ (by omega) (test_fine _).1 (test_fine _).2
  · cases h
  · rename_i lo hi after e
    have hl := parseRepeat_le _ _ _ e
    split at h
    · cases h
    · rename_i hb
      have hle : ∀ m ∈ hi, lo ≤ m := fun m hm => by
        by_contra hlt
        exact hb (.inr ⟨m, hm, .inr (by omega)⟩)
      have := repeatOp_kept p (Tree.rep lo hi) _ after y (fun _ _ => rfl) (fun _ _ h => ⟨hle, h⟩) (fun hc l t => by
        have hc : ¬ (2 ≤ lo ∨ ∃ m ∈ hi, 2 ≤ m) := by simpa using hc
        have := wt_pos t
        simp only [wt]
        split
        · omega
        · have : max 1 (hi.getD lo) = 1 := by
            cases hi with
            | none => simp only [Option.getD_none]; omega
            | some m =>
              have : ¬ 2 ≤ m := fun h => hc (.inr ⟨m, rfl, h⟩)
              simp only [Option.getD_some]; omega
          rw [this]; omega) h
      exact ⟨by have := this.1; omega, this.2⟩

theorem backslash_kept (p : P) (t : List Nat) (y : P × List Nat) (h : backslash p t = .ok y) : Kept p (t.length + 1) y := by
  have place : ∀ x, Kept p (t.length + 1) (p.push (.tree (.place x)), t.tail) := fun x =>
    kept_push p _ _ _ _ _ _ (by rw [List.length_tail]; omega) (place_fine x).1 (place_fine x).2
  unfold backslash at h
  split at h
  · cases h; exact place _
  · split at h
    · cases h; exact place _
    · split at h
      · cases h; exact place _
      · split at h
        · cases h
        · split at h
          · cases h
          · split at h
            · cases h; exact place _
            · split at h
              · cases h
              · split at h
                · cases h
                  exact kept_push p _ _ _ _ _ _ (by rw [List.length_tail]; omega) (test_fine _).1 (test_fine _).2
                · cases e : escape t with
                  | none => rw [e] at h; cases h
                  | some x =>
                    rw [e] at h
                    cases h
                    have := escape_lt t x.1 x.2 e
                    exact kept_push p _ _ _ _ _ _ (by omega) (test_fine _).1 (test_fine _).2

theorem perlFlags_kept (p : P) (t : List Nat) (y : P × List Nat) (h : perlFlags p t = .ok y) : Kept p t.length y := by
  unfold perlFlags at h
  split at h
  · cases h
  · split at h
    · cases h
    · rename_i e
      have := flagLoop_lt _ _ _ _ _ _ _ e
      split at h
      · cases h
        exact kept_push p _ _ _ _ _ _ this (by simp [Cell.size]) trivial
      · cases h
        exact ⟨this, by simp only; omega, id⟩

theorem rightParen_kept (p p' : P) (t : List Nat) (h : rightParen p = .ok p') : Kept p (t.length + 1) (p', t) := by
  obtain ⟨h1, h2⟩ := close_size p.stack
  unfold rightParen at h
  split at h
  · rename_i x cap fl s e
    rw [e] at h1 h2
    cases h
    simp only [size_cons, Cell.size] at h1
    refine ⟨by simp, ?_, ?_⟩
    · simp only [size_cons, Cell.size]
      cases cap
      · simp only; omega
      · simp only [nodes]; omega
    · intro hf y hy
      have hf := h2 hf
      rcases List.mem_cons.1 hy with rfl | hy
      · have : Cell.Fine (.tree x) := hf _ List.mem_cons_self
        cases cap
        · exact this
        · exact this
      · exact hf y (List.mem_cons_of_mem _ (List.mem_cons_of_mem _ hy))
  · cases h

theorem step_kept (p : P) (t : List Nat) (y : P × List Nat) (h : step p t = .ok y) : Kept p t.length y := by
  cases t with
  | nil => cases h
  | cons c t =>
    rw [List.length_cons]
    have test : ∀ x, Kept p (t.length + 1) (p.push (.tree (.test x)), t) := fun x => kept_push p _ _ _ _ _ _ (by omega) (test_fine x).1 (test_fine x).2
    have place : ∀ x, Kept p (t.length + 1) (p.push (.tree (.place x)), t) := fun x => kept_push p _ _ _ _ _ _ (by omega) (place_fine x).1 (place_fine x).2
    rw [step] at h
    by_cases h1 : c = 40
    · rw [if_pos h1] at h
      by_cases h2 : t.head? = some 63
      · rw [if_pos h2] at h
        have := perlFlags_kept _ _ _ h
        rw [List.length_tail] at this
        exact ⟨by have := this.1; omega, this.2⟩
      · rw [if_neg h2] at h
        cases h
        exact kept_push p _ _ _ _ _ _ (by omega) (by simp [Cell.size]) trivial
    rw [if_neg h1] at h
    by_cases h1 : c = 124
    · rw [if_pos h1] at h
      cases h
      exact ⟨by simp, (verticalBar_size _).1, (verticalBar_size _).2⟩
    rw [if_neg h1] at h
    by_cases h1 : c = 41
    · rw [if_pos h1] at h
      cases e : rightParen p with
      | error _ => rw [e] at h; cases h
      | ok p' =>
        rw [e] at h
        cases h
        exact rightParen_kept p p' t e
    rw [if_neg h1] at h
    by_cases h1 : c = 94
    · rw [if_pos h1] at h
      cases h; exact place _
    rw [if_neg h1] at h
    by_cases h1 : c = 36
    · rw [if_pos h1] at h
      cases h; exact place _
    rw [if_neg h1] at h
    by_cases h1 : c = 46
    · rw [if_pos h1] at h
      cases h; exact test _
    rw [if_neg h1] at h
    by_cases h1 : c = 91
    · rw [if_pos h1] at h
      cases e : parseClass t with
      | error _ => rw [e] at h; cases h
      | ok x =>
        rw [e] at h
        cases h
        have := parseClass_le t x e
        exact kept_push p _ _ _ _ _ _ (by omega) (test_fine _).1 (test_fine _).2
    rw [if_neg h1] at h
    by_cases h1 : c = 42
    · rw [if_pos h1] at h
      exact repeatOp_kept p .star false _ _ (fun _ _ => rfl) (fun _ _ h => h) (fun _ _ _ => Nat.le_refl _) h
    rw [if_neg h1] at h
    by_cases h1 : c = 43
    · rw [if_pos h1] at h
      exact repeatOp_kept p .plus false _ _ (fun _ _ => rfl) (fun _ _ h => h) (fun _ _ _ => Nat.le_refl _) h
    rw [if_neg h1] at h
    by_cases h1 : c = 63
    · rw [if_pos h1] at h
      exact repeatOp_kept p .quest false _ _ (fun _ _ => rfl) (fun _ _ h => h) (fun _ _ _ => Nat.le_refl _) h
    rw [if_neg h1] at h
    by_cases h1 : c = 123
    · rw [if_pos h1] at h
      exact brace_kept _ _ _ h
    rw [if_neg h1] at h
    by_cases h1 : c = 92
    · rw [if_pos h1] at h
      exact backslash_kept _ _ _ h
    rw [if_neg h1] at h
    cases h
    exact test _

theorem parseLoop_kept : ∀ (f : Nat) (p : P) (t : List Nat) (q : P), parseLoop f p t = .ok q → size q.stack ≤ size p.stack + 4 * t.length ∧ (Fine p.stack → Fine q.stack)
  | 0, p, [], q, h => by cases h; exact ⟨by omega, id⟩
  | 0, p, c :: t, q, h => by cases h
  | f + 1, p, [], q, h => by cases h; exact ⟨by omega, id⟩
  | f + 1, p, c :: t, q, h => by
    simp only [parseLoop] at h
    cases e : step p (c :: t) with
    | error _ => rw [e] at h; cases h
    | ok x =>
      rw [e] at h
      obtain ⟨h1, h2, h3⟩ := step_kept _ _ _ e
      obtain ⟨h4, h5⟩ := parseLoop_kept f x.1 x.2 q h
      exact ⟨by omega, fun h => h5 (h3 h)⟩

theorem parse_kept (t : List Nat) (x : Tree) (h : parse t = .ok x) : nodes x ≤ 4 * t.length + 1 ∧ Ordered x ∧ wt x ≤ 1000 := by
  unfold parse at h
  cases e : parseLoop t.length .init t with
  | error _ => rw [e] at h; cases h
  | ok q =>
    rw [e] at h
    obtain ⟨h1, h2⟩ := parseLoop_kept _ _ _ _ e
    obtain ⟨h3, h4⟩ := close_size q.stack
    simp only [Except.bind] at h
    split at h
    · rename_i y e'
      cases h
      rw [e'] at h3 h4
      have h5 : Cell.Fine (.tree x) := h4 (h2 nofun) _ List.mem_cons_self
      have h0 : size P.init.stack = 0 := rfl
      simp only [size_cons, Cell.size] at h3
      exact ⟨by omega, h5⟩
    · cases h

theorem patternGo_length : ∀ (f : Nat) (s : Bytes) (t : List Nat), patternGo f s = some t → t.length ≤ s.length
  | 0, s, t, h => by cases h; simp
  | f + 1, [], t, h => by cases h; simp
  | f + 1, b :: s, t, h => by
    simp only [patternGo] at h
    split at h
    · cases h
    · cases e : patternGo f ((b :: s).drop (Json.decodeRune (b :: s)).2) with
      | none => rw [e] at h; cases h
      | some u =>
        rw [e] at h
        cases h
        have := patternGo_length f _ u e
        have hd : 1 ≤ (Json.decodeRune (b :: s)).2 := by
          by_cases hb : b < 128
          · simp only [Json.decodeRune]
            rw [if_pos (by exact hb)]
          · rcases Json.decodeRune_cases b s hb with h | ⟨c, r, _, h2, _, h4⟩
            · rw [h]
            · rw [h4]
              exact utf8_pos c
        simp only [List.length_drop, List.length_cons] at this ⊢
        omega

theorem runesGo_length : ∀ (f : Nat) (s : Bytes), (runesGo f s).length ≤ f
  | 0, s => by simp [runesGo]
  | f + 1, [] => by simp [runesGo]
  | f + 1, b :: s => by
    have := runesGo_length f ((b :: s).drop (Json.decodeRune (b :: s)).2)
    simp only [runesGo, List.length_cons]
    omega

end Gofer.Regexp
