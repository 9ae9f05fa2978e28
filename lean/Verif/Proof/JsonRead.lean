import Verif.Proof.JsonDoc
/-
Values of documents: every document is read, and only documents are.
-/
namespace Gofer.Json
open Gofer.Spec.Json
open Gofer.Post (all8)

/-! ## White space -/

theorem space_iff (b : UInt8) : isSpace b = true ↔ b = 32 ∨ b = 9 ∨ b = 13 ∨ b = 10 := by
  simp [isSpace, or_assoc]

theorem skip_space (w : Bytes) (hw : Space w) (r : Bytes) : skip (w ++ r) = skip r := by
  induction w with
  | nil => rfl
  | cons b w ih =>
    rw [List.cons_append, skip, if_pos ((space_iff b).2 (hw b (by simp))), ih (fun b hb => hw b (by simp [hb]))]

theorem skip_inv (bs : Bytes) : ∃ w, Space w ∧ bs = w ++ skip bs := by
  induction bs with
  | nil => exact ⟨[], by intro b hb; simp at hb, rfl⟩
  | cons b bs ih =>
    rw [skip]
    split
    · rename_i h
      obtain ⟨w, h1, h2⟩ := ih
      refine ⟨b :: w, ?_, ?_⟩
      · intro c hc
        rw [List.mem_cons] at hc
        rcases hc with rfl | hc
        · exact (space_iff _).1 h
        · exact h1 c hc
      · rw [List.cons_append, ← h2]
    · exact ⟨[], by intro b hb; simp at hb, rfl⟩

theorem ends_space (w r : Bytes) (hw : Space w) (hr : Ends r) : Ends (w ++ r) := by
  match w with
  | [] => exact hr
  | b :: w =>
    intro c hc
    simp only [List.cons_append, List.head?_cons, Option.some.injEq] at hc
    subst hc
    have := hw b (by simp)
    tauto

/-! ## Numbers -/

theorem isDigit_iff (b : UInt8) : isDigit b = true ↔ 48 ≤ b.toNat ∧ b.toNat ≤ 57 := by
  simp [isDigit, UInt8.le_iff_toNat_le]

theorem nat_digits {ds : Bytes} {n : Nat} (h : NatDoc ds n) : ∀ b ∈ ds, isDigit b = true := fun b hb =>
  (isDigit_iff b).2 (h.2.1 b hb)

theorem whole_nat {ds : Bytes} {n : Nat} (h : NatDoc ds n) (r : Bytes) (hr : Ends r) : whole (ds ++ r) = some (ds, r) := by
  have hd := nat_digits h
  obtain ⟨h1, _, h3, _⟩ := h
  match ds with
  | [] => exact absurd rfl h1
  | b :: l =>
    rw [List.cons_append, whole]
    split
    · rename_i hb
      subst hb
      have := h3 rfl
      simp only [List.cons.injEq, true_and] at this
      rw [this]; rfl
    · rw [if_pos (hd b (by simp)), span_digits l r (fun b hb => hd b (by simp [hb])) hr]

theorem minus_nat {ds : Bytes} {n : Nat} (h : NatDoc ds n) (r : Bytes) : minus (ds ++ r) = ([], ds ++ r) := by
  have hd := nat_digits h
  match ds with
  | [] => exact absurd rfl h.1
  | b :: l =>
    rw [List.cons_append, minus, if_neg]
    rintro rfl
    exact absurd (hd 45 (by simp)) (by decide)

/-- The text of an integer. -/
def IntDoc (i : Int) (d : Bytes) : Prop := ∃ ds n, NatDoc ds n ∧ ((d = ds ∧ i = (n : Int)) ∨ (d = 45 :: ds ∧ i = -(n : Int)))

theorem number_int {i : Int} {d : Bytes} (h : IntDoc i d) (r : Bytes) (hr : Ends r) : number (d ++ r) = some (d, r) := by
  obtain ⟨ds, n, hn, h⟩ := h
  have w := whole_nat hn r hr
  have m := minus_nat hn r
  unfold number
  rcases h with ⟨rfl, _⟩ | ⟨rfl, _⟩
  · rw [m]
    simp only [w, fraction_ends r hr, exponent_ends r hr, Option.bind_some, Option.map_some]
    simp
  · have e : minus (45 :: ds ++ r) = ([45], ds ++ r) := rfl
    rw [e]
    simp only [w, fraction_ends r hr, exponent_ends r hr, Option.bind_some, Option.map_some]
    simp

theorem parseInt_int {i : Int} {d : Bytes} (h : IntDoc i d) (hi : -(2 : Int) ^ 63 ≤ i ∧ i < 2 ^ 63) : parseInt d = some i := by
  obtain ⟨ds, n, hn, h⟩ := h
  have m := minus_nat hn []
  rw [List.append_nil] at m
  have ha : ds.all isDigit = true := by simpa using nat_digits hn
  have hp : parseNat ds = n := hn.2.2.2.symm
  unfold parseInt
  rcases h with ⟨rfl, rfl⟩ | ⟨rfl, rfl⟩
  · simp only [m, ha, hp]
    have e : ¬ (([] : Bytes) = [45]) := by decide
    simp only [if_neg e]
    rw [if_pos trivial, if_pos hi]
  · have e : minus (45 :: ds) = ([45], ds) := rfl
    simp only [e, ha, hp]
    rw [if_pos trivial, if_pos trivial, if_pos hi]

theorem int_head {i : Int} {d : Bytes} (h : IntDoc i d) :
    ∃ b l, d = b :: l ∧ Begins b ∧ b ≠ 34 ∧ b ≠ 91 ∧ b ≠ 123 ∧ b ≠ 116 ∧ b ≠ 102 ∧ b ≠ 110 := by
  obtain ⟨ds, n, hn, h⟩ := h
  rcases h with ⟨rfl, _⟩ | ⟨rfl, _⟩
  · have hd := nat_digits hn
    match d with
    | [] => exact absurd rfl hn.1
    | b :: l => exact ⟨b, l, rfl, digit_begins b (hd b (by simp))⟩
  · exact ⟨45, ds, rfl, by decide, by decide⟩

theorem span_inv (bs : Bytes) : bs = (span bs).1 ++ (span bs).2 ∧ ∀ b ∈ (span bs).1, isDigit b = true := by
  induction bs with
  | nil => simp [span]
  | cons b bs ih =>
    rw [span]
    split
    · rename_i h
      refine ⟨by rw [List.cons_append, ← ih.1], ?_⟩
      intro c hc
      rw [List.mem_cons] at hc
      rcases hc with rfl | hc
      · exact h
      · exact ih.2 c hc
    · simp

theorem whole_inv (bs w r : Bytes) (h : whole bs = some (w, r)) : bs = w ++ r ∧ NatDoc w (parseNat w) := by
  match bs with
  | [] => simp [whole] at h
  | b :: bs =>
    rw [whole] at h
    split at h
    · rename_i hb
      simp only [Option.some.injEq, Prod.mk.injEq] at h
      obtain ⟨rfl, rfl⟩ := h
      subst hb
      refine ⟨rfl, by simp, by decide, fun _ => rfl, rfl⟩
    split at h
    · rename_i hb hd
      simp only [Option.some.injEq, Prod.mk.injEq] at h
      obtain ⟨rfl, rfl⟩ := h
      obtain ⟨h1, h2⟩ := span_inv bs
      refine ⟨by rw [List.cons_append, ← h1], by simp, ?_, ?_, rfl⟩
      · intro c hc
        rw [List.mem_cons] at hc
        rcases hc with rfl | hc
        · exact (isDigit_iff _).1 hd
        · exact (isDigit_iff _).1 (h2 c hc)
      · intro h
        simp only [List.head?_cons, Option.some.injEq] at h
        exact absurd h hb
    · simp at h

theorem some1_inv (bs a r : Bytes) (h : some1 bs = some (a, r)) : bs = a ++ r := by
  unfold some1 at h
  split at h
  · simp at h
  · simp only [Option.some.injEq] at h
    have := (span_inv bs).1
    rw [h] at this
    exact this

theorem fraction_inv (bs a r : Bytes) (h : fraction bs = some (a, r)) : bs = a ++ r ∧ (a = [] ∨ 46 ∈ a) := by
  match bs with
  | [] => simp [fraction] at h; simp [h]
  | b :: bs =>
    rw [fraction] at h
    split at h
    · rename_i hb
      subst hb
      cases hs : some1 bs with
      | none => rw [hs] at h; simp at h
      | some p =>
        rw [hs] at h
        simp only [Option.map_some, Option.some.injEq, Prod.mk.injEq] at h
        obtain ⟨rfl, rfl⟩ := h
        refine ⟨?_, Or.inr (by simp)⟩
        rw [List.cons_append, ← some1_inv bs p.1 p.2 hs]
    · simp only [Option.some.injEq, Prod.mk.injEq] at h
      obtain ⟨rfl, rfl⟩ := h
      exact ⟨rfl, Or.inl rfl⟩

theorem exponent_inv (bs a r : Bytes) (h : exponent bs = some (a, r)) : bs = a ++ r ∧ (a = [] ∨ 101 ∈ a ∨ 69 ∈ a) := by
  match bs with
  | [] => simp [exponent] at h; simp [h]
  | b :: bs =>
    rw [exponent.eq_def] at h
    simp only [] at h
    split at h
    · rename_i hb
      match bs with
      | [] => simp at h
      | g :: bs =>
        simp only [] at h
        split at h
        · cases hs : some1 bs with
          | none => rw [hs] at h; simp at h
          | some p =>
            rw [hs] at h
            simp only [Option.map_some, Option.some.injEq, Prod.mk.injEq] at h
            obtain ⟨rfl, rfl⟩ := h
            refine ⟨?_, Or.inr ?_⟩
            · simp only [List.cons_append]
              rw [← some1_inv bs p.1 p.2 hs]
            · rcases hb with rfl | rfl <;> simp
        · cases hs : some1 (g :: bs) with
          | none => rw [hs] at h; simp at h
          | some p =>
            rw [hs] at h
            simp only [Option.map_some, Option.some.injEq, Prod.mk.injEq] at h
            obtain ⟨rfl, rfl⟩ := h
            refine ⟨?_, Or.inr ?_⟩
            · rw [List.cons_append, ← some1_inv _ p.1 p.2 hs]
            · rcases hb with rfl | rfl <;> simp
    · simp only [Option.some.injEq, Prod.mk.injEq] at h
      obtain ⟨rfl, rfl⟩ := h
      exact ⟨rfl, Or.inl rfl⟩

theorem minus_inv (bs : Bytes) : bs = (minus bs).1 ++ (minus bs).2 ∧ ((minus bs).1 = [] ∨ (minus bs).1 = [45]) := by
  match bs with
  | [] => simp [minus]
  | b :: bs =>
    rw [minus]
    split
    · rename_i h; subst h; simp
    · simp

theorem number_inv (bs lit r : Bytes) (i : Int) (h : number bs = some (lit, r)) (hp : parseInt lit = some i) :
    bs = lit ++ r ∧ (-(2 : Int) ^ 63 ≤ i ∧ i < 2 ^ 63) ∧ IntDoc i lit := by
  unfold number at h
  obtain ⟨hm1, hm2⟩ := minus_inv bs
  generalize (minus bs).1 = sg at h hm1 hm2
  generalize (minus bs).2 = b1 at h hm1 hm2
  cases hw : whole b1 with
  | none => rw [hw] at h; simp at h
  | some w =>
    rw [hw] at h
    simp only [Option.bind_some] at h
    obtain ⟨hw1, hw2⟩ := whole_inv b1 w.1 w.2 hw
    cases hx : fraction w.2 with
    | none => rw [hx] at h; simp at h
    | some x =>
      rw [hx] at h
      simp only [Option.bind_some] at h
      obtain ⟨hx1, hx2⟩ := fraction_inv w.2 x.1 x.2 hx
      cases he : exponent x.2 with
      | none => rw [he] at h; simp at h
      | some e =>
        rw [he] at h
        simp only [Option.map_some, Option.some.injEq, Prod.mk.injEq] at h
        obtain ⟨he1, he2⟩ := exponent_inv x.2 e.1 e.2 he
        obtain ⟨rfl, rfl⟩ := h
        refine ⟨by rw [hm1, hw1, hx1, he1]; simp, ?_⟩
        have hmin : minus (sg ++ w.1 ++ x.1 ++ e.1) = (sg, w.1 ++ (x.1 ++ e.1)) := by
          have hmn := minus_nat hw2 (x.1 ++ e.1)
          rcases hm2 with rfl | rfl
          · rw [List.nil_append, List.append_assoc]; exact hmn
          · simp only [List.append_assoc, List.cons_append, List.nil_append]
            rfl
        unfold parseInt at hp
        rw [hmin] at hp
        simp only [] at hp
        split at hp
        · rename_i hall
          rw [List.all_eq_true] at hall
          have hx0 : x.1 = [] := by
            rcases hx2 with h | h
            · exact h
            · exact absurd (hall 46 (by simp [h])) (by decide)
          have he0 : e.1 = [] := by
            rcases he2 with h | h | h
            · exact h
            · exact absurd (hall 101 (by simp [h])) (by decide)
            · exact absurd (hall 69 (by simp [h])) (by decide)
          simp only [hx0, he0, List.append_nil] at hp ⊢
          generalize hj : (if sg = [45] then -(parseNat w.1 : Int) else parseNat w.1) = j at hp
          split at hp
          · rename_i hr
            simp only [Option.some.injEq] at hp
            subst hp
            refine ⟨hr, w.1, parseNat w.1, hw2, ?_⟩
            rcases hm2 with rfl | rfl
            · left
              have e : ¬ (([] : Bytes) = [45]) := by decide
              rw [if_neg e] at hj
              exact ⟨rfl, hj.symm⟩
            · right
              rw [if_pos rfl] at hj
              exact ⟨rfl, hj.symm⟩
          · simp at hp
        · simp at hp

/-! ## Every document is read -/

def Reads (t : Ty) : Prop := ∀ (v : Val t) (d : Bytes), Doc t v d → ∀ (f k : Nat) (w r : Bytes), Space w → Ends r →
  k + depth t ≤ maxDepth → 2 * d.length ≤ f → ∃ T, value f k (w ++ (d ++ r)) = some (T, r) ∧ get t T = some v

theorem doc_head (t : Ty) (v : Val t) (d : Bytes) (h : Doc t v d) : ∃ b l, d = b :: l ∧ Begins b := by
  match t with
  | .bool =>
    rcases h with ⟨_, rfl⟩ | ⟨_, rfl⟩ | ⟨_, rfl⟩ <;> exact ⟨_, _, rfl, by decide⟩
  | .int =>
    rcases h with ⟨_, h⟩ | ⟨_, rfl⟩
    · obtain ⟨b, l, h1, h2, _⟩ := int_head h
      exact ⟨b, l, h1, h2⟩
    · exact ⟨_, _, rfl, by decide⟩
  | .str =>
    rcases h with ⟨q, _, rfl⟩ | ⟨_, rfl⟩ <;> exact ⟨_, _, rfl, by decide⟩
  | .list t =>
    rcases h with ⟨l, q, _, _, rfl⟩ | ⟨_, rfl⟩ <;> exact ⟨_, _, rfl, by decide⟩
  | .map t =>
    rcases h with ⟨l, q, _, _, rfl⟩ | ⟨_, rfl⟩ <;> exact ⟨_, _, rfl, by decide⟩

theorem value_skip (f k : Nat) (w b : Bytes) (hw : Space w) : value (f + 1) k (w ++ b) = value (f + 1) k b := by
  rw [value, value, skip_space w hw]

theorem value_null (f k : Nat) (r : Bytes) : value (f + 1) k ([110, 117, 108, 108] ++ r) = some (.null, r) := by
  show value (f + 1) k (110 :: ([117, 108, 108] ++ r)) = _
  rw [value, skip_begins 110 _ rfl]
  simp only []
  rw [if_neg (by decide), if_neg (by decide), if_neg (by decide), if_neg (by decide), if_neg (by decide), if_pos trivial,
    word_append]
  rfl

theorem value_true (f k : Nat) (r : Bytes) : value (f + 1) k ([116, 114, 117, 101] ++ r) = some (.bool true, r) := by
  show value (f + 1) k (116 :: ([114, 117, 101] ++ r)) = _
  rw [value, skip_begins 116 _ rfl]
  simp only []
  rw [if_neg (by decide), if_neg (by decide), if_neg (by decide), if_pos trivial, word_append]
  rfl

theorem value_false (f k : Nat) (r : Bytes) : value (f + 1) k ([102, 97, 108, 115, 101] ++ r) = some (.bool false, r) := by
  show value (f + 1) k (102 :: ([97, 108, 115, 101] ++ r)) = _
  rw [value, skip_begins 102 _ rfl]
  simp only []
  rw [if_neg (by decide), if_neg (by decide), if_neg (by decide), if_neg (by decide), if_pos trivial, word_append]
  rfl

theorem elems_read (t : Ty) (ht : Reads t) (L : List (Val t)) (d : Bytes) (h : Items (Doc t) L d) (hL : L ≠ []) :
    ∀ (f k : Nat) (r : Bytes), k + depth t ≤ maxDepth → 2 * d.length + 1 ≤ f →
      ∃ Ts, elems f k (d ++ 93 :: r) = some (Ts, r) ∧ all (get t) Ts = some L := by
  induction h with
  | none w _ => exact absurd rfl hL
  | one w w' d x hw hw' hx =>
    intro f k r hk hf
    simp only [List.length_append] at hf
    match f with
    | 0 => omega
    | f + 1 =>
      obtain ⟨T, h1, h2⟩ := ht x d hx f k w (w' ++ 93 :: r) hw (ends_space _ _ hw' (ends_bracket r)) hk (by omega)
      refine ⟨[T], ?_, ?_⟩
      · simp only [List.append_assoc]
        rw [elems, h1]
        simp only [Option.bind_some]
        rw [skip_space w' hw', skip_begins 93 _ rfl]
        rfl
      · simp only [all, h2, Option.bind_some, Option.map_some]
  | more w w' d q x y l hw hw' hx _ ih =>
    intro f k r hk hf
    simp only [List.length_append, List.length_cons] at hf
    match f with
    | 0 => omega
    | f + 1 =>
      obtain ⟨T, h1, h2⟩ := ht x d hx f k w (w' ++ 44 :: (q ++ 93 :: r)) hw (ends_space _ _ hw' (ends_comma _)) hk (by omega)
      obtain ⟨Ts, h3, h4⟩ := ih (by simp) f k r hk (by omega)
      refine ⟨T :: Ts, ?_, ?_⟩
      · simp only [List.append_assoc, List.cons_append]
        rw [elems, h1]
        simp only [Option.bind_some]
        rw [skip_space w' hw', skip_begins 44 _ rfl]
        simp only []
        rw [if_pos trivial, h3]
        rfl
      · simp only [all, h2, h4, Option.bind_some, Option.map_some]

/-- The value of a member. -/
def getMember (t : Ty) (e : Bytes × Tree) : Option (Bytes × Val t) :=
  (unquote e.1.length e.1).bind fun k => (get t e.2).map fun v => (k, v)

theorem members_read1 (t : Ty) (ht : Reads t) (e : Bytes × Val t) (d : Bytes) (h : Member (Doc t) e d) (f k : Nat) (w w' r : Bytes)
    (hw : Space w) (hw' : Space w') (hr : Ends r) (hk : k + depth t ≤ maxDepth) (hf : 2 * d.length ≤ f) :
    ∃ q T, getMember t (q, T) = some e ∧ members (f + 1) k (w ++ (d ++ (w' ++ r))) =
      match skip r with
      | [] => none
      | c :: r =>
        if c = 44 then (members f k r).map fun z => ((q, T) :: z.1, z.2)
        else if c = 125 then some ([(q, T)], r)
        else none := by
  obtain ⟨q, u, u', d', hq, hu, hu', hd', rfl⟩ := h
  simp only [List.length_cons, List.length_append] at hf
  obtain ⟨T, h1, h2⟩ := ht e.2 d' hd' f k u' (w' ++ r) hu' (ends_space _ _ hw' hr) hk (by omega)
  refine ⟨q, T, ?_, ?_⟩
  · simp only [getMember, unquote_doc hq _ (le_refl _), h2, Option.bind_some, Option.map_some]
  · simp only [List.append_assoc, List.cons_append]
    rw [members, skip_space w hw, skip_begins 34 _ rfl]
    simp only []
    rw [if_pos trivial, scan_doc hq]
    simp only [Option.bind_some]
    rw [skip_space u hu, skip_begins 58 _ rfl]
    simp only []
    rw [if_pos trivial, h1]
    simp only [Option.bind_some]
    rw [skip_space w' hw']
    rfl

theorem members_read (t : Ty) (ht : Reads t) (L : List (Bytes × Val t)) (d : Bytes) (h : Items (Member (Doc t)) L d) (hL : L ≠ []) :
    ∀ (f k : Nat) (r : Bytes), k + depth t ≤ maxDepth → 2 * d.length + 1 ≤ f →
      ∃ Ts, members f k (d ++ 125 :: r) = some (Ts, r) ∧ all (getMember t) Ts = some L := by
  induction h with
  | none w _ => exact absurd rfl hL
  | one w w' d x hw hw' hx =>
    intro f k r hk hf
    simp only [List.length_append] at hf
    match f with
    | 0 => omega
    | f + 1 =>
      obtain ⟨q, T, h1, h2⟩ := members_read1 t ht x d hx f k w w' (125 :: r) hw hw' (ends_brace r) hk (by omega)
      refine ⟨[(q, T)], ?_, ?_⟩
      · simp only [List.append_assoc]
        rw [h2, skip_begins 125 _ rfl]
        rfl
      · simp only [all, h1, Option.bind_some, Option.map_some]
  | more w w' d q x y l hw hw' hx _ ih =>
    intro f k r hk hf
    simp only [List.length_append, List.length_cons] at hf
    match f with
    | 0 => omega
    | f + 1 =>
      obtain ⟨q', T, h1, h2⟩ := members_read1 t ht x d hx f k w w' (44 :: (q ++ 125 :: r)) hw hw' (ends_comma _) hk (by omega)
      obtain ⟨Ts, h3, h4⟩ := ih (by simp) f k r hk (by omega)
      refine ⟨(q', T) :: Ts, ?_, ?_⟩
      · simp only [List.append_assoc, List.cons_append]
        rw [h2, skip_begins 44 _ rfl]
        simp only []
        rw [if_pos trivial, h3]
        rfl
      · simp only [all, h1, h4, Option.bind_some, Option.map_some]

theorem items_empty {A : Type} {P : A → Bytes → Prop} {d : Bytes} (h : Items P [] d) : Space d := by
  cases h with
  | none w hw => exact hw

theorem items_head {A : Type} {P : A → Bytes → Prop} {x : A} {l : List A} {d : Bytes} (h : Items P (x :: l) d) :
    ∃ w d' r, Space w ∧ P x d' ∧ d = w ++ (d' ++ r) := by
  cases h with
  | one w w' d x hw hw' hx => exact ⟨w, d, w', hw, hx, rfl⟩
  | more w w' d r x y l hw hw' hx _ => exact ⟨w, d, _, hw, hx, rfl⟩

theorem reads (t : Ty) : Reads t := by
  induction t with
  | bool =>
    intro v d h f k w r hw _ _ hf
    match f with
    | 0 => rcases h with ⟨_, rfl⟩ | ⟨_, rfl⟩ | ⟨_, rfl⟩ <;> simp at hf
    | f + 1 =>
      rw [value_skip f k w _ hw]
      rcases h with ⟨rfl, rfl⟩ | ⟨rfl, rfl⟩ | ⟨rfl, rfl⟩
      · exact ⟨_, value_true f k r, rfl⟩
      · exact ⟨_, value_false f k r, rfl⟩
      · exact ⟨_, value_null f k r, rfl⟩
  | int =>
    intro v d h f k w r hw hr _ hf
    match f with
    | 0 =>
      obtain ⟨b, l, rfl, _⟩ := doc_head .int v d h
      simp at hf
    | f + 1 =>
      rw [value_skip f k w _ hw]
      rcases h with ⟨h0, h⟩ | ⟨rfl, rfl⟩
      · refine ⟨.num d, ?_, parseInt_int h h0⟩
        have hn := number_int h r hr
        obtain ⟨b, l, rfl, h2, h3⟩ := int_head h
        rw [List.cons_append] at hn ⊢
        rw [value, skip_begins b _ h2.2.2]
        simp only []
        rw [if_neg h3.1, if_neg h3.2.1, if_neg h3.2.2.1, if_neg h3.2.2.2.1, if_neg h3.2.2.2.2.1, if_neg h3.2.2.2.2.2,
          hn]
        rfl
      · exact ⟨_, value_null f k r, rfl⟩
  | str =>
    intro v d h f k w r hw hr _ hf
    match f with
    | 0 =>
      obtain ⟨b, l, rfl, _⟩ := doc_head .str v d h
      simp at hf
    | f + 1 =>
      rw [value_skip f k w _ hw]
      rcases h with ⟨q, h, rfl⟩ | ⟨rfl, rfl⟩
      · refine ⟨.str q, ?_, unquote_doc h _ (le_refl _)⟩
        simp only [List.cons_append, List.append_assoc, List.nil_append]
        rw [value, skip_begins 34 _ rfl]
        simp only []
        rw [if_pos trivial, scan_doc h]
        rfl
      · exact ⟨_, value_null f k r, rfl⟩
  | list t ih =>
    intro v d h f k w r hw hr hk hf
    match f with
    | 0 =>
      obtain ⟨b, l, rfl, _⟩ := doc_head (.list t) v d h
      simp at hf
    | f + 1 =>
      rw [value_skip f k w _ hw]
      rcases h with ⟨l, q, rfl, hq, rfl⟩ | ⟨rfl, rfl⟩
      · simp only [depth] at hk
        simp only [List.length_cons, List.length_append, List.length_nil] at hf
        match l with
        | [] =>
          refine ⟨.arr [], ?_, rfl⟩
          simp only [List.cons_append, List.append_assoc, List.nil_append]
          rw [value, skip_begins 91 _ rfl]
          simp only []
          rw [if_neg (by decide), if_pos trivial, if_neg (by omega), skip_space q (items_empty hq), skip_begins 93 _ rfl]
          rfl
        | x :: l =>
          obtain ⟨Ts, h1, h2⟩ := elems_read t ih _ q hq (by simp) f (k + 1) r (by omega) (by omega)
          refine ⟨.arr Ts, ?_, ?_⟩
          · simp only [List.cons_append, List.append_assoc, List.nil_append]
            rw [value, skip_begins 91 _ rfl]
            simp only []
            rw [if_neg (by decide), if_pos trivial, if_neg (by omega), if_neg, h1]
            · rfl
            · obtain ⟨w, d', q', h3, h4, rfl⟩ := items_head hq
              obtain ⟨b, l', rfl, hb⟩ := doc_head t x d' h4
              simp only [List.append_assoc, List.cons_append]
              rw [skip_space w h3, skip_begins b _ hb.2.2]
              simp only [List.head?_cons, Option.some.injEq]
              exact hb.1
          · simp only [get, h2, Option.map_some]
      · exact ⟨_, value_null f k r, rfl⟩
  | map t ih =>
    intro v d h f k w r hw hr hk hf
    match f with
    | 0 =>
      obtain ⟨b, l, rfl, _⟩ := doc_head (.map t) v d h
      simp at hf
    | f + 1 =>
      rw [value_skip f k w _ hw]
      rcases h with ⟨l, q, rfl, hq, rfl⟩ | ⟨rfl, rfl⟩
      · simp only [depth] at hk
        simp only [List.length_cons, List.length_append, List.length_nil] at hf
        match l with
        | [] =>
          refine ⟨.obj [], ?_, rfl⟩
          simp only [List.cons_append, List.append_assoc, List.nil_append]
          rw [value, skip_begins 123 _ rfl]
          simp only []
          rw [if_neg (by decide), if_neg (by decide), if_pos trivial, if_neg (by omega), skip_space q (items_empty hq),
            skip_begins 125 _ rfl]
          rfl
        | x :: l =>
          obtain ⟨Ts, h1, h2⟩ := members_read t ih _ q hq (by simp) f (k + 1) r (by omega) (by omega)
          refine ⟨.obj Ts, ?_, ?_⟩
          · simp only [List.cons_append, List.append_assoc, List.nil_append]
            rw [value, skip_begins 123 _ rfl]
            simp only []
            rw [if_neg (by decide), if_neg (by decide), if_pos trivial, if_neg (by omega), if_neg, h1]
            · rfl
            · obtain ⟨w, d', q', h3, h4, rfl⟩ := items_head hq
              obtain ⟨_, _, _, _, _, _, _, _, rfl⟩ := h4
              simp only [List.append_assoc, List.cons_append]
              rw [skip_space w h3, skip_begins 34 _ rfl]
              simp
          · show (all (getMember t) Ts).map (fun es => some (filled es)) = _
            rw [h2]
            rfl
      · exact ⟨_, value_null f k r, rfl⟩

theorem read_doc (t : Ty) (v : Val t) (d w w' : Bytes) (h : Doc t v d) (hw : Space w) (hw' : Space w') (hd : depth t ≤ maxDepth) :
    jsonDecode t (w ++ (d ++ w')) = some v := by
  obtain ⟨T, h1, h2⟩ := reads t v d h (2 * (w ++ (d ++ w')).length + 2) 0 w w' hw
    (by have := ends_space w' [] hw' (by intro b hb; simp at hb); rwa [List.append_nil] at this) (by omega)
    (by simp only [List.length_append]; omega)
  unfold jsonDecode
  rw [h1]
  simp only [Option.bind_some]
  have : skip w' = [] := by
    have := skip_space w' hw' []
    rw [List.append_nil] at this
    rw [this]; rfl
  rw [if_pos this, h2]

/-! ## Nothing else is read -/

theorem word_inv (p r r' : Bytes) (h : word p r = some r') : r = p ++ r' := by
  unfold word at h
  split at h
  · rename_i hp
    obtain ⟨t, rfl⟩ := List.isPrefixOf_iff_prefix.1 hp
    simp only [List.drop_left, Option.some.injEq] at h
    rw [h]
  · simp at h

/-- How a value may begin. -/
theorem value_inv (f k : Nat) (bs r : Bytes) (T : Tree) (h : value (f + 1) k bs = some (T, r)) :
    ∃ w b q, Space w ∧ bs = w ++ b :: q ∧
      ((b = 34 ∧ ∃ s, T = .str s ∧ scanStr q = some (s, r)) ∨
        (b = 91 ∧ ((T = .arr [] ∧ skip q = 93 :: r) ∨ ∃ l, T = .arr l ∧ elems f (k + 1) q = some (l, r))) ∨
        (b = 123 ∧ ((T = .obj [] ∧ skip q = 125 :: r) ∨ ∃ l, T = .obj l ∧ members f (k + 1) q = some (l, r))) ∨
        (T = .bool true ∧ b :: q = [116, 114, 117, 101] ++ r) ∨
        (T = .bool false ∧ b :: q = [102, 97, 108, 115, 101] ++ r) ∨
        (T = .null ∧ b :: q = [110, 117, 108, 108] ++ r) ∨
        ∃ lit, T = .num lit ∧ number (b :: q) = some (lit, r)) := by
  obtain ⟨w, hw, hb⟩ := skip_inv bs
  rw [value] at h
  generalize skip bs = s at h hb
  match s with
  | [] => simp at h
  | b :: q =>
    refine ⟨w, b, q, hw, hb, ?_⟩
    simp only [] at h
    have hcons : ∀ (c : UInt8) (q r : Bytes), (skip q).head? = some c → skip q = c :: (skip q).tail := by
      intro c q r h
      cases hs : skip q with
      | nil => rw [hs] at h; simp at h
      | cons a l => rw [hs] at h; simp at h; subst h; rfl
    split at h
    · rename_i e
      left
      cases hs : scanStr q with
      | none => rw [hs] at h; simp at h
      | some p =>
        rw [hs] at h
        simp only [Option.map_some, Option.some.injEq, Prod.mk.injEq] at h
        exact ⟨e, p.1, h.1.symm, by rw [← h.2]⟩
    split at h
    · rename_i e
      right; left
      refine ⟨e, ?_⟩
      split at h
      · simp at h
      split at h
      · rename_i h93
        simp only [Option.some.injEq, Prod.mk.injEq] at h
        left
        exact ⟨h.1.symm, by rw [← h.2]; exact hcons 93 q r h93⟩
      · right
        cases hs : elems f (k + 1) q with
        | none => rw [hs] at h; simp at h
        | some p =>
          rw [hs] at h
          simp only [Option.map_some, Option.some.injEq, Prod.mk.injEq] at h
          exact ⟨p.1, h.1.symm, by rw [← h.2]⟩
    split at h
    · rename_i e
      right; right; left
      refine ⟨e, ?_⟩
      split at h
      · simp at h
      split at h
      · rename_i h93
        simp only [Option.some.injEq, Prod.mk.injEq] at h
        left
        exact ⟨h.1.symm, by rw [← h.2]; exact hcons 125 q r h93⟩
      · right
        cases hs : members f (k + 1) q with
        | none => rw [hs] at h; simp at h
        | some p =>
          rw [hs] at h
          simp only [Option.map_some, Option.some.injEq, Prod.mk.injEq] at h
          exact ⟨p.1, h.1.symm, by rw [← h.2]⟩
    have hword : ∀ (p : Bytes) (X : Tree), (word p q).map (fun r => (X, r)) = some (T, r) → T = X ∧ q = p ++ r := by
      intro p X h
      cases hs : word p q with
      | none => rw [hs] at h; simp at h
      | some r' =>
        rw [hs] at h
        simp only [Option.map_some, Option.some.injEq, Prod.mk.injEq] at h
        obtain ⟨rfl, rfl⟩ := h
        exact ⟨rfl, word_inv p q _ hs⟩
    split at h
    · rename_i e
      obtain ⟨h1, h2⟩ := hword _ _ h
      right; right; right; left
      exact ⟨h1, by rw [e, h2]; rfl⟩
    split at h
    · rename_i e
      obtain ⟨h1, h2⟩ := hword _ _ h
      right; right; right; right; left
      exact ⟨h1, by rw [e, h2]; rfl⟩
    split at h
    · rename_i e
      obtain ⟨h1, h2⟩ := hword _ _ h
      right; right; right; right; right; left
      exact ⟨h1, by rw [e, h2]; rfl⟩
    · right; right; right; right; right; right
      cases hs : number (b :: q) with
      | none => rw [hs] at h; simp at h
      | some p =>
        rw [hs] at h
        simp only [Option.map_some, Option.some.injEq, Prod.mk.injEq] at h
        exact ⟨p.1, h.1.symm, by rw [← h.2]⟩

def Sound (t : Ty) : Prop := ∀ (f k : Nat) (bs r : Bytes) (T : Tree) (v : Val t), value f k bs = some (T, r) → get t T = some v →
  ∃ w d, bs = w ++ (d ++ r) ∧ Space w ∧ Doc t v d

theorem elems_sound (t : Ty) (ht : Sound t) (f k : Nat) (bs r : Bytes) (Ts : List Tree) (l : List (Val t))
    (h : elems f k bs = some (Ts, r)) (hl : all (get t) Ts = some l) : ∃ d, bs = d ++ 93 :: r ∧ Items (Doc t) l d ∧ l ≠ [] := by
  induction f generalizing bs Ts l with
  | zero => simp [elems] at h
  | succ f ih =>
    rw [elems] at h
    cases hv : value f k bs with
    | none => rw [hv] at h; simp at h
    | some p =>
      obtain ⟨T, r1⟩ := p
      rw [hv] at h
      simp only [Option.bind_some] at h
      obtain ⟨w', hw', hr1⟩ := skip_inv r1
      generalize skip r1 = s at h hr1
      match s with
      | [] => simp at h
      | b :: q =>
        simp only [] at h
        split at h
        · rename_i hb
          subst hb
          cases he : elems f k q with
          | none => rw [he] at h; simp at h
          | some p =>
            obtain ⟨Ts', r2⟩ := p
            rw [he] at h
            simp only [Option.map_some, Option.some.injEq, Prod.mk.injEq] at h
            obtain ⟨rfl, rfl⟩ := h
            simp only [all] at hl
            cases hg : get t T with
            | none => rw [hg] at hl; simp at hl
            | some v =>
              rw [hg] at hl
              simp only [Option.bind_some] at hl
              cases ha : all (get t) Ts' with
              | none => rw [ha] at hl; simp at hl
              | some l' =>
                rw [ha] at hl
                simp only [Option.map_some, Option.some.injEq] at hl
                subst hl
                obtain ⟨d', h1, h2, h3⟩ := ih q Ts' l' he ha
                obtain ⟨w, d, h4, h5, h6⟩ := ht f k bs r1 T v hv hg
                match l' with
                | [] => exact absurd rfl h3
                | y :: l' =>
                  refine ⟨w ++ (d ++ (w' ++ 44 :: d')), ?_, .more w w' d d' v y l' h5 hw' h6 h2, by simp⟩
                  rw [h4, hr1, h1]
                  simp
        split at h
        · rename_i hb
          subst hb
          simp only [Option.some.injEq, Prod.mk.injEq] at h
          obtain ⟨rfl, rfl⟩ := h
          simp only [all] at hl
          cases hg : get t T with
          | none => rw [hg] at hl; simp at hl
          | some v =>
            rw [hg] at hl
            simp only [Option.bind_some, Option.map_some, Option.some.injEq] at hl
            subst hl
            obtain ⟨w, d, h4, h5, h6⟩ := ht f k bs r1 T v hv hg
            refine ⟨w ++ (d ++ w'), ?_, .one w w' d v h5 hw' h6, by simp⟩
            rw [h4, hr1]
            simp
        · simp at h

theorem getMember_inv (t : Ty) (q : Bytes) (T : Tree) (e : Bytes × Val t) (h : getMember t (q, T) = some e) :
    unquote q.length q = some e.1 ∧ get t T = some e.2 := by
  unfold getMember at h
  cases hu : unquote q.length q with
  | none => rw [hu] at h; simp at h
  | some s =>
    rw [hu] at h
    simp only [Option.bind_some] at h
    cases hg : get t T with
    | none => rw [hg] at h; simp at h
    | some v =>
      rw [hg] at h
      simp only [Option.map_some, Option.some.injEq] at h
      subst h
      exact ⟨rfl, rfl⟩

theorem members_sound (t : Ty) (ht : Sound t) (f k : Nat) (bs r : Bytes) (Ts : List (Bytes × Tree)) (l : List (Bytes × Val t))
    (h : members f k bs = some (Ts, r)) (hl : all (getMember t) Ts = some l) :
    ∃ d, bs = d ++ 125 :: r ∧ Items (Member (Doc t)) l d ∧ l ≠ [] := by
  induction f generalizing bs Ts l with
  | zero => simp [members] at h
  | succ f ih =>
    rw [members] at h
    obtain ⟨w, hw, hbs⟩ := skip_inv bs
    generalize skip bs = s at h hbs
    match s with
    | [] => simp at h
    | b :: q =>
      simp only [] at h
      split at h
      · rename_i hb
        subst hb
        cases hk : scanStr q with
        | none => rw [hk] at h; simp at h
        | some p =>
          obtain ⟨key, q1⟩ := p
          rw [hk] at h
          simp only [Option.bind_some] at h
          obtain ⟨hq, hq'⟩ := scan_some q.length q key q1 (le_refl _) hk
          obtain ⟨u, hu, hq1⟩ := skip_inv q1
          generalize skip q1 = s at h hq1
          match s with
          | [] => simp at h
          | c :: q2 =>
            simp only [] at h
            split at h
            · rename_i hc
              subst hc
              cases hv : value f k q2 with
              | none => rw [hv] at h; simp at h
              | some p =>
                obtain ⟨T, r1⟩ := p
                rw [hv] at h
                simp only [Option.bind_some] at h
                obtain ⟨w', hw', hr1⟩ := skip_inv r1
                generalize skip r1 = s at h hr1
                have mem : ∀ e, getMember t (key, T) = some e → ∃ d, Member (Doc t) e d ∧ 34 :: q = d ++ r1 := by
                  intro e he
                  obtain ⟨e1, e2⟩ := getMember_inv t key T e he
                  obtain ⟨u', d', h4, h5, h6⟩ := ht f k q2 r1 T e.2 hv e2
                  refine ⟨34 :: (key ++ 34 :: (u ++ 58 :: (u' ++ d'))), ⟨key, u, u', d', ?_, hu, h5, h6, rfl⟩, ?_⟩
                  · exact scanned_doc key.length key e.1 key.length (le_refl _) (hq' []) e1
                  · rw [hq, hq1, h4]
                    simp
                match s with
                | [] => simp at h
                | b :: q3 =>
                  simp only [] at h
                  split at h
                  · rename_i hb
                    subst hb
                    cases he : members f k q3 with
                    | none => rw [he] at h; simp at h
                    | some p =>
                      obtain ⟨Ts', r2⟩ := p
                      rw [he] at h
                      simp only [Option.map_some, Option.some.injEq, Prod.mk.injEq] at h
                      obtain ⟨rfl, rfl⟩ := h
                      simp only [all] at hl
                      cases hg : getMember t (key, T) with
                      | none => rw [hg] at hl; simp at hl
                      | some v =>
                        rw [hg] at hl
                        simp only [Option.bind_some] at hl
                        cases ha : all (getMember t) Ts' with
                        | none => rw [ha] at hl; simp at hl
                        | some l' =>
                          rw [ha] at hl
                          simp only [Option.map_some, Option.some.injEq] at hl
                          subst hl
                          obtain ⟨d', h1, h2, h3⟩ := ih q3 Ts' l' he ha
                          obtain ⟨d, h4, h5⟩ := mem v hg
                          match l' with
                          | [] => exact absurd rfl h3
                          | y :: l' =>
                            refine ⟨w ++ (d ++ (w' ++ 44 :: d')), ?_, .more w w' d d' v y l' hw hw' h4 h2, by simp⟩
                            rw [hbs, h5, hr1, h1]
                            simp
                  split at h
                  · rename_i hb
                    subst hb
                    simp only [Option.some.injEq, Prod.mk.injEq] at h
                    obtain ⟨rfl, rfl⟩ := h
                    simp only [all] at hl
                    cases hg : getMember t (key, T) with
                    | none => rw [hg] at hl; simp at hl
                    | some v =>
                      rw [hg] at hl
                      simp only [Option.bind_some, Option.map_some, Option.some.injEq] at hl
                      subst hl
                      obtain ⟨d, h4, h5⟩ := mem v hg
                      refine ⟨w ++ (d ++ w'), ?_, .one w w' d v hw hw' h4, by simp⟩
                      rw [hbs, h5, hr1]
                      simp
                  · simp at h
            · simp at h
      · simp at h

theorem sound (t : Ty) : Sound t := by
  induction t with
  | bool =>
    intro f k bs r T v h hg
    match f with
    | 0 => simp [value] at h
    | f + 1 =>
      obtain ⟨w, b, q, hw, hb, hh⟩ := value_inv f k bs r T h
      cases T with
      | bool x =>
        simp only [get, Option.some.injEq] at hg
        subst hg
        rcases hh with ⟨_, _, hT, _⟩ | ⟨_, ⟨hT, _⟩ | ⟨_, hT, _⟩⟩ | ⟨_, ⟨hT, _⟩ | ⟨_, hT, _⟩⟩ | ⟨hT, hq⟩ | ⟨hT, hq⟩ | ⟨hT, hq⟩ | ⟨_, hT, _⟩
        all_goals first | (cases hT; done) | skip
        · simp at hT; subst hT; exact ⟨w, _, by rw [hb, hq], hw, Or.inl ⟨rfl, rfl⟩⟩
        · simp at hT; subst hT; exact ⟨w, _, by rw [hb, hq], hw, Or.inr (Or.inl ⟨rfl, rfl⟩)⟩
      | null =>
        simp only [get, Option.some.injEq] at hg
        subst hg
        rcases hh with ⟨_, _, hT, _⟩ | ⟨_, ⟨hT, _⟩ | ⟨_, hT, _⟩⟩ | ⟨_, ⟨hT, _⟩ | ⟨_, hT, _⟩⟩ | ⟨hT, hq⟩ | ⟨hT, hq⟩ | ⟨hT, hq⟩ | ⟨_, hT, _⟩
        all_goals first | (simp at hT; done) | skip
        exact ⟨w, _, by rw [hb, hq], hw, Or.inr (Or.inr ⟨rfl, rfl⟩)⟩
      | num _ => simp [get] at hg
      | str _ => simp [get] at hg
      | arr _ => simp [get] at hg
      | obj _ => simp [get] at hg
  | int =>
    intro f k bs r T v h hg
    match f with
    | 0 => simp [value] at h
    | f + 1 =>
      obtain ⟨w, b, q, hw, hb, hh⟩ := value_inv f k bs r T h
      cases T with
      | num lit =>
        rcases hh with ⟨_, _, hT, _⟩ | ⟨_, ⟨hT, _⟩ | ⟨_, hT, _⟩⟩ | ⟨_, ⟨hT, _⟩ | ⟨_, hT, _⟩⟩ | ⟨hT, hq⟩ | ⟨hT, hq⟩ | ⟨hT, hq⟩ | ⟨_, hT, hq⟩
        all_goals first | (cases hT; done) | skip
        simp only [Tree.num.injEq] at hT
        subst hT
        obtain ⟨h1, h2, h3⟩ := number_inv _ _ _ v hq hg
        exact ⟨w, _, by rw [hb, h1], hw, Or.inl ⟨h2, h3⟩⟩
      | null =>
        simp only [get, Option.some.injEq] at hg
        subst hg
        rcases hh with ⟨_, _, hT, _⟩ | ⟨_, ⟨hT, _⟩ | ⟨_, hT, _⟩⟩ | ⟨_, ⟨hT, _⟩ | ⟨_, hT, _⟩⟩ | ⟨hT, hq⟩ | ⟨hT, hq⟩ | ⟨hT, hq⟩ | ⟨_, hT, _⟩
        all_goals first | (simp at hT; done) | skip
        exact ⟨w, _, by rw [hb, hq], hw, Or.inr ⟨rfl, rfl⟩⟩
      | bool _ => simp [get] at hg
      | str _ => simp [get] at hg
      | arr _ => simp [get] at hg
      | obj _ => simp [get] at hg
  | str =>
    intro f k bs r T v h hg
    match f with
    | 0 => simp [value] at h
    | f + 1 =>
      obtain ⟨w, b, q, hw, hb, hh⟩ := value_inv f k bs r T h
      cases T with
      | str s =>
        rcases hh with ⟨hb34, _, hT, hs⟩ | ⟨_, ⟨hT, _⟩ | ⟨_, hT, _⟩⟩ | ⟨_, ⟨hT, _⟩ | ⟨_, hT, _⟩⟩ | ⟨hT, hq⟩ | ⟨hT, hq⟩ | ⟨hT, hq⟩ | ⟨_, hT, hq⟩
        all_goals first | (cases hT; done) | skip
        simp only [Tree.str.injEq] at hT
        subst hT
        obtain ⟨h1, h2⟩ := scan_some q.length q s r (le_refl _) hs
        refine ⟨w, 34 :: (s ++ [34]), by rw [hb, hb34, h1]; simp, hw, Or.inl ⟨s, ?_, rfl⟩⟩
        exact scanned_doc s.length s v s.length (le_refl _) (h2 []) hg
      | null =>
        simp only [get, Option.some.injEq] at hg
        subst hg
        rcases hh with ⟨_, _, hT, _⟩ | ⟨_, ⟨hT, _⟩ | ⟨_, hT, _⟩⟩ | ⟨_, ⟨hT, _⟩ | ⟨_, hT, _⟩⟩ | ⟨hT, hq⟩ | ⟨hT, hq⟩ | ⟨hT, hq⟩ | ⟨_, hT, _⟩
        all_goals first | (simp at hT; done) | skip
        exact ⟨w, _, by rw [hb, hq], hw, Or.inr ⟨rfl, rfl⟩⟩
      | bool _ => simp [get] at hg
      | num _ => simp [get] at hg
      | arr _ => simp [get] at hg
      | obj _ => simp [get] at hg
  | list t ih =>
    intro f k bs r T v h hg
    match f with
    | 0 => simp [value] at h
    | f + 1 =>
      obtain ⟨w, b, q, hw, hb, hh⟩ := value_inv f k bs r T h
      cases T with
      | arr Ts =>
        simp only [get] at hg
        cases ha : all (get t) Ts with
        | none => rw [ha] at hg; simp at hg
        | some l =>
          rw [ha] at hg
          simp only [Option.map_some, Option.some.injEq] at hg
          subst hg
          rcases hh with ⟨_, _, hT, _⟩ | ⟨h91, ⟨hT, hs⟩ | ⟨_, hT, hs⟩⟩ | ⟨_, ⟨hT, _⟩ | ⟨_, hT, _⟩⟩ | ⟨hT, hq⟩ | ⟨hT, hq⟩ | ⟨hT, hq⟩ | ⟨_, hT, hq⟩
          all_goals first | (cases hT; done) | skip
          · simp only [Tree.arr.injEq] at hT
            subst hT
            simp only [all, Option.some.injEq] at ha
            subst ha
            obtain ⟨u, hu, hq⟩ := skip_inv q
            refine ⟨w, 91 :: (u ++ [93]), by rw [hb, h91, hq, hs]; simp, hw, Or.inl ⟨[], u, rfl, .none u hu, rfl⟩⟩
          · simp only [Tree.arr.injEq] at hT
            subst hT
            obtain ⟨d, h1, h2, _⟩ := elems_sound t ih f (k + 1) q r _ l hs ha
            refine ⟨w, 91 :: (d ++ [93]), by rw [hb, h91, h1]; simp, hw, Or.inl ⟨l, d, rfl, h2, rfl⟩⟩
      | null =>
        simp only [get, Option.some.injEq] at hg
        subst hg
        rcases hh with ⟨_, _, hT, _⟩ | ⟨_, ⟨hT, _⟩ | ⟨_, hT, _⟩⟩ | ⟨_, ⟨hT, _⟩ | ⟨_, hT, _⟩⟩ | ⟨hT, hq⟩ | ⟨hT, hq⟩ | ⟨hT, hq⟩ | ⟨_, hT, _⟩
        all_goals first | (simp at hT; done) | skip
        exact ⟨w, _, by rw [hb, hq], hw, Or.inr ⟨rfl, rfl⟩⟩
      | bool _ => simp [get] at hg
      | num _ => simp [get] at hg
      | str _ => simp [get] at hg
      | obj _ => simp [get] at hg
  | map t ih =>
    intro f k bs r T v h hg
    match f with
    | 0 => simp [value] at h
    | f + 1 =>
      obtain ⟨w, b, q, hw, hb, hh⟩ := value_inv f k bs r T h
      cases T with
      | obj Ts =>
        have hg' : (all (getMember t) Ts).map (fun es => some (filled es)) = some v := hg
        cases ha : all (getMember t) Ts with
        | none => rw [ha] at hg'; simp at hg'
        | some l =>
          rw [ha] at hg'
          simp only [Option.map_some, Option.some.injEq] at hg'
          subst hg'
          rcases hh with ⟨_, _, hT, _⟩ | ⟨_, ⟨hT, _⟩ | ⟨_, hT, _⟩⟩ | ⟨h91, ⟨hT, hs⟩ | ⟨_, hT, hs⟩⟩ | ⟨hT, hq⟩ | ⟨hT, hq⟩ | ⟨hT, hq⟩ | ⟨_, hT, hq⟩
          all_goals first | (cases hT; done) | skip
          · simp only [Tree.obj.injEq] at hT
            subst hT
            simp only [all, Option.some.injEq] at ha
            subst ha
            obtain ⟨u, hu, hq⟩ := skip_inv q
            refine ⟨w, 123 :: (u ++ [125]), by rw [hb, h91, hq, hs]; simp, hw, Or.inl ⟨[], u, rfl, .none u hu, rfl⟩⟩
          · simp only [Tree.obj.injEq] at hT
            subst hT
            obtain ⟨d, h1, h2, _⟩ := members_sound t ih f (k + 1) q r _ l hs ha
            refine ⟨w, 123 :: (d ++ [125]), by rw [hb, h91, h1]; simp, hw, Or.inl ⟨l, d, rfl, h2, rfl⟩⟩
      | null =>
        simp only [get, Option.some.injEq] at hg
        subst hg
        rcases hh with ⟨_, _, hT, _⟩ | ⟨_, ⟨hT, _⟩ | ⟨_, hT, _⟩⟩ | ⟨_, ⟨hT, _⟩ | ⟨_, hT, _⟩⟩ | ⟨hT, hq⟩ | ⟨hT, hq⟩ | ⟨hT, hq⟩ | ⟨_, hT, _⟩
        all_goals first | (simp at hT; done) | skip
        exact ⟨w, _, by rw [hb, hq], hw, Or.inr ⟨rfl, rfl⟩⟩
      | bool _ => simp [get] at hg
      | num _ => simp [get] at hg
      | str _ => simp [get] at hg
      | arr _ => simp [get] at hg

theorem decode_doc (t : Ty) (v : Val t) (bs : Bytes) (h : jsonDecode t bs = some v) :
    ∃ w d w', bs = w ++ (d ++ w') ∧ Space w ∧ Space w' ∧ Doc t v d := by
  unfold jsonDecode at h
  cases hv : value (2 * bs.length + 2) 0 bs with
  | none => rw [hv] at h; simp at h
  | some p =>
    rw [hv] at h
    simp only [Option.bind_some] at h
    split at h
    · rename_i hs
      obtain ⟨w, d, h1, h2, h3⟩ := sound t _ _ _ _ _ v hv h
      obtain ⟨w', h4, h5⟩ := skip_inv p.2
      rw [hs, List.append_nil] at h5
      exact ⟨w, d, p.2, h1, h2, by rw [h5]; exact h4, h3⟩
    · simp at h

/-! ## The last byte of what is written -/

theorem digits_last (f n : Nat) (hf : 0 < f) : ∃ x, (digits f n).getLast? = some x ∧ isSpace x = false := by
  have key : ∀ m, m < 10 → isSpace (UInt8.ofNat (48 + m)) = false := by decide +kernel
  match f with
  | 0 => omega
  | f + 1 =>
    rw [digits]
    split
    · rename_i h
      exact ⟨_, rfl, key n h⟩
    · exact ⟨_, List.getLast?_concat, key _ (by omega)⟩

theorem encode_last (t : Ty) (v : Val t) (h : WF t v) : ∃ x, (jsonEncode t v).getLast? = some x ∧ isSpace x = false := by
  match t, v with
  | .bool, true => exact ⟨_, rfl, by decide⟩
  | .bool, false => exact ⟨_, rfl, by decide⟩
  | .int, i =>
    obtain ⟨x, h1, h2⟩ := digits_last 20 i.natAbs (by decide)
    refine ⟨x, ?_, h2⟩
    simp only [jsonEncode, itoa]
    split
    · rw [List.getLast?_cons, h1]; rfl
    · exact h1
  | .str, s =>
    refine ⟨34, ?_, by decide⟩
    show (34 :: (body s.length s ++ [34])).getLast? = some 34
    rw [List.getLast?_cons, List.getLast?_concat]; rfl
  | .list t, none => exact ⟨108, rfl, by decide⟩
  | .list t, some l =>
    refine ⟨93, ?_, by decide⟩
    show (91 :: (commas (l.map (jsonEncode t)) ++ [93])).getLast? = some 93
    rw [List.getLast?_cons, List.getLast?_concat]; rfl
  | .map t, none => exact ⟨108, rfl, by decide⟩
  | .map t, some l =>
    refine ⟨125, ?_, by decide⟩
    show (123 :: (commas (l.map (member t)) ++ [125])).getLast? = some 125
    rw [List.getLast?_cons, List.getLast?_concat]; rfl

end Gofer.Json
