import Verif.Model.JsonStruct
import Verif.Proof.JsonRead
/-!
# Documents of any form are what the scanner takes
-/
namespace Gofer.JsonStruct
open Gofer.Spec.Json (Bytes Text Fixed StrDoc Space NatDoc filled utf8)
open Gofer.Spec.JsonStruct
open Gofer.Json hiding jsonDecode jsonEncode

/-! ## Numbers -/

def Stops (r : Bytes) : Prop := ∀ b, r.head? = some b → isDigit b = false

theorem stops_ends {r : Bytes} (h : Ends r) : Stops r := by
  intro b hb
  rcases h b hb with rfl | rfl | rfl | rfl | rfl | rfl | rfl <;> rfl

theorem span_stop (l r : Bytes) (h : ∀ b ∈ l, isDigit b = true) (hr : Stops r) : span (l ++ r) = (l, r) := by
  induction l with
  | nil => match r with
    | [] => rfl
    | b :: r =>
      rw [List.nil_append, span, if_neg (by simp [hr b rfl])]
  | cons b l ih =>
    rw [List.cons_append, span, if_pos (h b (by simp)), ih (fun b hb => h b (by simp [hb]))]

theorem whole_stop {ds : Bytes} {n : Nat} (h : NatDoc ds n) (r : Bytes) (hr : Stops r) : whole (ds ++ r) = some (ds, r) := by
  have hd := nat_digits h
  obtain ⟨h1, _, h3, _⟩ := h
  match ds with
  | [] => exact absurd rfl h1
  | b :: l =>
    rw [List.cons_append, whole]
    split
    · rename_i hb
      subst hb
      have := h3 rfl
      simp only [List.cons.injEq, true_and] at this
      subst this
      rfl
    · rw [if_pos (hd b (by simp)), span_stop l r (fun c hc => hd c (by simp [hc])) hr]

theorem digits_is {d : Bytes} (h : Digits d) : ∀ b ∈ d, isDigit b = true := fun b hb => (isDigit_iff b).2 (h.2 b hb)

theorem some1_stop {d : Bytes} (h : Digits d) (r : Bytes) (hr : Stops r) : some1 (d ++ r) = some (d, r) := by
  unfold some1
  rw [span_stop d r (digits_is h) hr, if_neg h.1]

theorem digits_head {d : Bytes} (h : Digits d) : ∃ b l, d = b :: l ∧ isDigit b = true := by
  match d with
  | [] => exact absurd rfl h.1
  | b :: l => exact ⟨b, l, rfl, digits_is h b (by simp)⟩

theorem exponent_stop (ex r : Bytes) (h : ex = [] ∨ ∃ e sg d, (e = 101 ∨ e = 69) ∧ (sg = [] ∨ sg = [43] ∨ sg = [45]) ∧ ex = e :: (sg ++ d) ∧ Digits d)
    (hr : Ends r) : exponent (ex ++ r) = some (ex, r) := by
  rcases h with rfl | ⟨e, sg, d, he, hs, rfl, hd⟩
  · exact exponent_ends r hr
  · have h1 := some1_stop hd r (stops_ends hr)
    rw [List.cons_append, List.append_assoc, exponent.eq_def]
    simp only []
    rw [if_pos he]
    rcases hs with rfl | rfl | rfl
    · obtain ⟨b, l, rfl, hb⟩ := digits_head hd
      rw [List.nil_append, List.cons_append]
      simp only []
      rw [if_neg (by rintro (rfl | rfl) <;> simp [isDigit] at hb), ← List.cons_append, h1]
      rfl
    · simp only [List.cons_append, List.nil_append]
      rw [if_pos (by simp), h1]
      rfl
    · simp only [List.cons_append, List.nil_append]
      rw [if_pos (by simp), h1]
      rfl

theorem exponent_stops (ex r : Bytes) (h : ex = [] ∨ ∃ e sg d, (e = 101 ∨ e = 69) ∧ (sg = [] ∨ sg = [43] ∨ sg = [45]) ∧ ex = e :: (sg ++ d) ∧ Digits d)
    (hr : Ends r) : Stops (ex ++ r) ∧ (ex ++ r).head? ≠ some 46 := by
  rcases h with rfl | ⟨e, sg, d, he, hs, rfl, hd⟩
  · refine ⟨stops_ends hr, fun h => ?_⟩
    rcases hr 46 h with h | h | h | h | h | h | h <;> exact absurd h (by decide)
  · refine ⟨?_, ?_⟩
    · intro b hb
      simp only [List.cons_append, List.head?_cons, Option.some.injEq] at hb
      subst hb
      rcases he with rfl | rfl <;> rfl
    · simp only [List.cons_append, List.head?_cons, ne_eq, Option.some.injEq]
      rcases he with rfl | rfl <;> decide

theorem number_num {lit : Bytes} (h : NumDoc lit) (r : Bytes) (hr : Ends r) : number (lit ++ r) = some (lit, r) := by
  obtain ⟨s, ds, fr, ex, n, rfl, hs, hn, hf, he⟩ := h
  have h1 : minus ((s ++ (ds ++ (fr ++ ex))) ++ r) = (s, ds ++ (fr ++ (ex ++ r))) := by
    rcases hs with rfl | rfl
    · simp only [List.nil_append, List.append_assoc]
      exact minus_nat hn _
    · simp only [List.cons_append, List.nil_append, List.append_assoc]
      rfl
  obtain ⟨st, hd⟩ := exponent_stops ex r he hr
  have h2 : Stops (fr ++ (ex ++ r)) := by
    rcases hf with rfl | ⟨d, rfl, _⟩
    · exact st
    · intro b hb
      simp only [List.cons_append, List.head?_cons, Option.some.injEq] at hb
      subst hb
      rfl
  have h3 : fraction (fr ++ (ex ++ r)) = some (fr, ex ++ r) := by
    rcases hf with rfl | ⟨d, rfl, hd'⟩
    · rw [List.nil_append]
      generalize ex ++ r = z at hd
      match z with
      | [] => rfl
      | b :: z =>
        rw [fraction, if_neg (by rintro rfl; exact hd rfl)]
    · rw [List.cons_append, fraction, if_pos rfl, some1_stop hd' _ st]
      rfl
  unfold number
  rw [h1]
  simp only []
  rw [whole_stop hn _ h2]
  simp only [Option.bind_some]
  rw [h3]
  simp only [Option.bind_some]
  rw [exponent_stop ex r he hr]
  simp [List.append_assoc]

theorem num_head {lit : Bytes} (h : NumDoc lit) : ∃ b l, lit = b :: l ∧ Begins b ∧ b ≠ 34 ∧ b ≠ 91 ∧ b ≠ 123 ∧ b ≠ 116 ∧ b ≠ 102 ∧ b ≠ 110 := by
  obtain ⟨s, ds, fr, ex, n, rfl, hs, hn, _, _⟩ := h
  rcases hs with rfl | rfl
  · have hd := nat_digits hn
    match ds with
    | [] => exact absurd rfl hn.1
    | b :: ds => exact ⟨b, _, rfl, digit_begins b (hd b (by simp))⟩
  · exact ⟨45, _, rfl, by decide, by decide⟩

theorem some1_digits (bs a r : Bytes) (h : some1 bs = some (a, r)) : bs = a ++ r ∧ Digits a := by
  refine ⟨some1_inv bs a r h, ?_⟩
  unfold some1 at h
  split at h
  · simp at h
  · rename_i hne
    simp only [Option.some.injEq] at h
    have := (span_inv bs).2
    rw [h] at this hne
    exact ⟨hne, fun b hb => (isDigit_iff b).1 (this b hb)⟩

theorem fraction_digits (bs a r : Bytes) (h : fraction bs = some (a, r)) : bs = a ++ r ∧ (a = [] ∨ ∃ d, a = 46 :: d ∧ Digits d) := by
  refine ⟨(fraction_inv bs a r h).1, ?_⟩
  match bs with
  | [] => simp [fraction] at h; exact .inl h.1
  | b :: bs =>
    rw [fraction] at h
    split at h
    · cases hs : some1 bs with
      | none => rw [hs] at h; simp at h
      | some p =>
        rw [hs] at h
        simp only [Option.map_some, Option.some.injEq, Prod.mk.injEq] at h
        exact .inr ⟨p.1, h.1.symm, (some1_digits bs p.1 p.2 hs).2⟩
    · simp only [Option.some.injEq, Prod.mk.injEq] at h
      exact .inl h.1.symm

theorem exponent_digits (bs a r : Bytes) (h : exponent bs = some (a, r)) :
    bs = a ++ r ∧ (a = [] ∨ ∃ e sg d, (e = 101 ∨ e = 69) ∧ (sg = [] ∨ sg = [43] ∨ sg = [45]) ∧ a = e :: (sg ++ d) ∧ Digits d) := by
  refine ⟨(exponent_inv bs a r h).1, ?_⟩
  match bs with
  | [] => simp [exponent] at h; exact .inl h.1
  | b :: bs =>
    rw [exponent.eq_def] at h
    simp only [] at h
    split at h
    · rename_i hb
      match bs with
      | [] => simp at h
      | g :: bs =>
        simp only [] at h
        split at h
        · rename_i hg
          cases hs : some1 bs with
          | none => rw [hs] at h; simp at h
          | some p =>
            rw [hs] at h
            simp only [Option.map_some, Option.some.injEq, Prod.mk.injEq] at h
            refine .inr ⟨b, [g], p.1, hb, ?_, h.1.symm, (some1_digits bs p.1 p.2 hs).2⟩
            rcases hg with rfl | rfl <;> simp
        · cases hs : some1 (g :: bs) with
          | none => rw [hs] at h; simp at h
          | some p =>
            rw [hs] at h
            simp only [Option.map_some, Option.some.injEq, Prod.mk.injEq] at h
            exact .inr ⟨b, [], p.1, hb, .inl rfl, h.1.symm, (some1_digits _ p.1 p.2 hs).2⟩
    · simp only [Option.some.injEq, Prod.mk.injEq] at h
      exact .inl h.1.symm

theorem number_doc (bs lit r : Bytes) (h : number bs = some (lit, r)) : bs = lit ++ r ∧ NumDoc lit := by
  unfold number at h
  obtain ⟨hm1, hm2⟩ := minus_inv bs
  generalize (minus bs).1 = sg at h hm1 hm2
  generalize (minus bs).2 = b1 at h hm1 hm2
  cases hw : whole b1 with
  | none => rw [hw] at h; simp at h
  | some w =>
    rw [hw] at h
    simp only [Option.bind_some] at h
    obtain ⟨hw1, hw2⟩ := whole_inv b1 w.1 w.2 hw
    cases hx : fraction w.2 with
    | none => rw [hx] at h; simp at h
    | some x =>
      rw [hx] at h
      simp only [Option.bind_some] at h
      obtain ⟨hx1, hx2⟩ := fraction_digits w.2 x.1 x.2 hx
      cases he : exponent x.2 with
      | none => rw [he] at h; simp at h
      | some e =>
        rw [he] at h
        simp only [Option.map_some, Option.some.injEq, Prod.mk.injEq] at h
        obtain ⟨he1, he2⟩ := exponent_digits x.2 e.1 e.2 he
        obtain ⟨rfl, rfl⟩ := h
        refine ⟨by rw [hm1, hw1, hx1, he1]; simp, sg, w.1, x.1, e.1, _, by simp, hm2, hw2, hx2, he2⟩

/-! ## Every document is read -/

theorem doc_head {j : J} {d : Bytes} (h : JDoc j d) : ∃ b l, d = b :: l ∧ Begins b := by
  cases h with
  | null => exact ⟨_, _, rfl, by decide⟩
  | true => exact ⟨_, _, rfl, by decide⟩
  | false => exact ⟨_, _, rfl, by decide⟩
  | num _ h => obtain ⟨b, l, h1, h2, _⟩ := num_head h; exact ⟨b, l, h1, h2⟩
  | str => exact ⟨_, _, rfl, by decide⟩
  | arr => exact ⟨_, _, rfl, by decide⟩
  | obj => exact ⟨_, _, rfl, by decide⟩

mutual
theorem doc_read {j : J} {d : Bytes} (h : JDoc j d) : ∀ (f k : Nat) (w r : Bytes), Space w → Ends r → k + j.depth ≤ maxDepth → 2 * d.length ≤ f →
    ∃ tr, value f k (w ++ (d ++ r)) = some (tr, r) ∧ mean tr = j := by
  intro f k w r hw hr hk hf
  match f with
  | 0 =>
    obtain ⟨b, l, rfl, _⟩ := doc_head h
    simp at hf
  | f + 1 =>
    rw [value_skip f k w _ hw]
    match h with
    | .null => exact ⟨_, value_null f k r, by simp [mean]⟩
    | .true => exact ⟨_, value_true f k r, by simp [mean]⟩
    | .false => exact ⟨_, value_false f k r, by simp [mean]⟩
    | .num lit h =>
      refine ⟨.num lit, ?_, by simp [mean]⟩
      have hn := number_num h r hr
      obtain ⟨b, l, rfl, h2, h3⟩ := num_head h
      rw [List.cons_append] at hn ⊢
      rw [value, skip_begins b _ h2.2.2]
      simp only []
      rw [if_neg h3.1, if_neg h3.2.1, if_neg h3.2.2.1, if_neg h3.2.2.2.1, if_neg h3.2.2.2.2.1, if_neg h3.2.2.2.2.2, hn]
      rfl
    | .str q s h =>
      refine ⟨.str q, ?_, by simp [mean, unquote_doc h _ (le_refl _)]⟩
      simp only [List.cons_append, List.append_assoc, List.nil_append]
      rw [value, skip_begins 34 _ rfl]
      simp only []
      rw [if_pos trivial, scan_doc h]
      rfl
    | .arr l q hq =>
      have key := items_read hq
      simp only [J.depth] at hk
      simp only [List.length_cons, List.length_append, List.length_nil] at hf
      match l with
      | [] =>
        have hs : Space q := by cases hq with | none _ h => exact h
        refine ⟨.arr [], ?_, by simp [mean, meanL]⟩
        simp only [List.cons_append, List.append_assoc, List.nil_append]
        rw [value, skip_begins 91 _ rfl]
        simp only []
        rw [if_neg (by decide), if_pos trivial, if_neg (by omega), skip_space q hs, skip_begins 93 _ rfl]
        rfl
      | x :: l =>
        obtain ⟨Ts, h1, h2⟩ := key (by simp) f (k + 1) r (by omega) (by omega)
        refine ⟨.arr Ts, ?_, by simp [mean, h2]⟩
        simp only [List.cons_append, List.append_assoc, List.nil_append]
        rw [value, skip_begins 91 _ rfl]
        simp only []
        rw [if_neg (by decide), if_pos trivial, if_neg (by omega), if_neg, h1]
        · rfl
        · obtain ⟨w, d', q', h3, h4, rfl⟩ : ∃ w d' q', Space w ∧ JDoc x d' ∧ q = w ++ (d' ++ q') := by
            cases hq with
            | one w w' d _ hw _ hx => exact ⟨w, d, w', hw, hx, rfl⟩
            | more w w' d r _ y l hw _ hx _ => exact ⟨w, d, _, hw, hx, rfl⟩
          obtain ⟨b, l', rfl, hb⟩ := doc_head h4
          simp only [List.append_assoc, List.cons_append]
          rw [skip_space w h3, skip_begins b _ hb.2.2]
          simp only [List.head?_cons, Option.some.injEq]
          exact hb.1
    | .obj l q hq =>
      have key := members_read' hq
      simp only [J.depth] at hk
      simp only [List.length_cons, List.length_append, List.length_nil] at hf
      match l with
      | [] =>
        have hs : Space q := by cases hq with | none _ h => exact h
        refine ⟨.obj [], ?_, by simp [mean, meanM]⟩
        simp only [List.cons_append, List.append_assoc, List.nil_append]
        rw [value, skip_begins 123 _ rfl]
        simp only []
        rw [if_neg (by decide), if_neg (by decide), if_pos trivial, if_neg (by omega), skip_space q hs, skip_begins 125 _ rfl]
        rfl
      | x :: l =>
        obtain ⟨Ts, h1, h2⟩ := key (by simp) f (k + 1) r (by omega) (by omega)
        refine ⟨.obj Ts, ?_, by simp [mean, h2]⟩
        simp only [List.cons_append, List.append_assoc, List.nil_append]
        rw [value, skip_begins 123 _ rfl]
        simp only []
        rw [if_neg (by decide), if_neg (by decide), if_pos trivial, if_neg (by omega), if_neg, h1]
        · rfl
        · obtain ⟨w, q', h3, rfl⟩ : ∃ w q', Space w ∧ q = w ++ 34 :: q' := by
            cases hq with
            | one w => exact ⟨w, _, by assumption, rfl⟩
            | more w => exact ⟨w, _, by assumption, rfl⟩
          simp only [List.append_assoc, List.cons_append]
          rw [skip_space w h3, skip_begins 34 _ rfl]
          simp
termination_by structural h

theorem items_read {l : List J} {d : Bytes} (h : JItems l d) : l ≠ [] → ∀ (f k : Nat) (r : Bytes), k + depthL l ≤ maxDepth → 2 * d.length + 1 ≤ f →
    ∃ Ts, elems f k (d ++ 93 :: r) = some (Ts, r) ∧ meanL Ts = l := by
  intro hl f k r hk hf
  match h with
  | .none w _ => exact absurd rfl hl
  | .one w w' d x hw hw' hx =>
    simp only [List.length_append] at hf
    simp only [depthL] at hk
    match f with
    | 0 => omega
    | f + 1 =>
      obtain ⟨tr, h1, h2⟩ := doc_read hx f k w (w' ++ 93 :: r) hw (ends_space _ _ hw' (ends_bracket r)) (by omega) (by omega)
      refine ⟨[tr], ?_, by simp [meanL, h2]⟩
      simp only [List.append_assoc]
      rw [elems, h1]
      simp only [Option.bind_some]
      rw [skip_space w' hw', skip_begins 93 _ rfl]
      rfl
  | .more w w' d q x y l hw hw' hx hrest =>
    simp only [List.length_append, List.length_cons] at hf
    have hk' : k + max x.depth (depthL (y :: l)) ≤ maxDepth := hk
    match f with
    | 0 => omega
    | f + 1 =>
      obtain ⟨tr, h1, h2⟩ := doc_read hx f k w (w' ++ 44 :: (q ++ 93 :: r)) hw (ends_space _ _ hw' (ends_comma _)) (by omega) (by omega)
      obtain ⟨Ts, h3, h4⟩ := items_read hrest (by simp) f k r (by omega) (by omega)
      refine ⟨tr :: Ts, ?_, by simp [meanL, h2, h4]⟩
      simp only [List.append_assoc, List.cons_append]
      rw [elems, h1]
      simp only [Option.bind_some]
      rw [skip_space w' hw', skip_begins 44 _ rfl]
      simp only []
      rw [if_pos trivial, h3]
      rfl
termination_by structural h

theorem members_read' {l : List (Bytes × J)} {d : Bytes} (h : JMembers l d) : l ≠ [] → ∀ (f k : Nat) (r : Bytes), k + depthM l ≤ maxDepth → 2 * d.length + 1 ≤ f →
    ∃ Ts, members f k (d ++ 125 :: r) = some (Ts, r) ∧ meanM Ts = l := by
  intro hl f k r hk hf
  match h with
  | .none w _ => exact absurd rfl hl
  | .one w w1 w2 w' q key d x hw hw1 hw2 hw' hq hx =>
    simp only [List.length_append, List.length_cons] at hf
    simp only [depthM] at hk
    match f with
    | 0 => omega
    | f + 1 =>
      obtain ⟨tr, h1, h2⟩ := doc_read hx f k w2 (w' ++ 125 :: r) hw2 (ends_space _ _ hw' (ends_brace r)) (by omega) (by omega)
      refine ⟨[(q, tr)], ?_, by simp [meanM, h2, unquote_doc hq _ (le_refl _)]⟩
      simp only [List.append_assoc, List.cons_append]
      rw [members, skip_space w hw, skip_begins 34 _ rfl]
      simp only []
      rw [if_pos trivial, scan_doc hq]
      simp only [Option.bind_some]
      rw [skip_space w1 hw1, skip_begins 58 _ rfl]
      simp only []
      rw [if_pos trivial, h1]
      simp only [Option.bind_some]
      rw [skip_space w' hw', skip_begins 125 _ rfl]
      rfl
  | .more w w1 w2 w' q key d rest x y l hw hw1 hw2 hw' hq hx hrest =>
    simp only [List.length_append, List.length_cons] at hf
    have hk' : k + max x.depth (depthM (y :: l)) ≤ maxDepth := hk
    match f with
    | 0 => omega
    | f + 1 =>
      obtain ⟨tr, h1, h2⟩ := doc_read hx f k w2 (w' ++ 44 :: (rest ++ 125 :: r)) hw2 (ends_space _ _ hw' (ends_comma _)) (by omega) (by omega)
      obtain ⟨Ts, h3, h4⟩ := members_read' hrest (by simp) f k r (by omega) (by omega)
      refine ⟨(q, tr) :: Ts, ?_, by simp [meanM, h2, h4, unquote_doc hq _ (le_refl _)]⟩
      simp only [List.append_assoc, List.cons_append]
      rw [members, skip_space w hw, skip_begins 34 _ rfl]
      simp only []
      rw [if_pos trivial, scan_doc hq]
      simp only [Option.bind_some]
      rw [skip_space w1 hw1, skip_begins 58 _ rfl]
      simp only []
      rw [if_pos trivial, h1]
      simp only [Option.bind_some]
      rw [skip_space w' hw', skip_begins 44 _ rfl]
      simp only []
      rw [if_pos trivial, h3]
      rfl
termination_by structural h
end

theorem decode_document (fold : Bytes → Bytes) (t : T) (j : J) (bs : Bytes) (h : Document j bs) (hd : j.depth ≤ maxDepth) :
    jsonDecode fold t bs = store fold t (zero t) j := by
  obtain ⟨w, d, w', rfl, hw, hw', h⟩ := h
  obtain ⟨tr, h1, h2⟩ := doc_read h (2 * (w ++ (d ++ w')).length + 2) 0 w w' hw
    (by have := ends_space w' [] hw' (by intro b hb; simp at hb); rwa [List.append_nil] at this) (by omega)
    (by simp only [List.length_append]; omega)
  unfold jsonDecode
  rw [h1]
  have : skip w' = [] := by
    have := skip_space w' hw' []
    rw [List.append_nil] at this
    rw [this]; rfl
  simp only [this, if_true, h2]

/-! ## Nothing else is read -/

theorem scanned_unquote (k : Nat) (q : Bytes) (g : Nat) (hk : q.length ≤ k) (hg : q.length ≤ g) (h : Scanned q) : ∃ s, unquote g q = some s := by
  induction k generalizing q g with
  | zero => match q with
    | [] => cases g <;> exact ⟨[], by simp [unquote]⟩
    | _ :: _ => simp at hk
  | succ k ih => match q with
    | [] => cases g <;> exact ⟨[], by simp [unquote]⟩
    | c :: q =>
      simp only [List.length_cons] at hk hg
      match g with
      | 0 => omega
      | g + 1 =>
        have step : ∀ (p q' : Bytes), q'.length ≤ k → q'.length ≤ g → Scanned q' → ∃ s, (unquote g q').map (p ++ ·) = some s := by
          intro p q' h1 h2 h3
          obtain ⟨s, hs⟩ := ih q' g h1 h2 h3
          exact ⟨p ++ s, by rw [hs]; rfl⟩
        by_cases hc : c = 92
        · subst hc
          rcases scanned_escape q h with ⟨e, b, q', h1, h2, h3, h4⟩ | ⟨x, n, q', h1, h2, h3⟩
          · rw [h4]
            subst h2
            simp only [List.length_cons] at hk hg
            exact step [b] q' (by omega) (by omega) h3
          · subst h2
            obtain ⟨a1, a2, a3, _, _⟩ := hex4_getu4 x n h1 q'
            have e1 : (x ++ q').drop 4 = q' := by rw [← a2]; exact List.drop_left
            simp only [List.length_cons, List.length_append] at hk hg
            rw [unquote_u', a1]
            simp only [Option.bind_some, e1]
            split
            · cases hgu : getu q' with
              | none => exact step _ q' (by omega) (by omega) h3
              | some m =>
                simp only []
                split
                · obtain ⟨l, q'', hl, hq⟩ := getu_some q' m hgu
                  have hl2 := (hex4_getu4 l m hl q'').2.1
                  subst hq
                  have h4 : Scanned q'' := scanned_rest (92 :: 117 :: l) q'' h3 (scan_hex4 l m hl)
                  have e2 : (x ++ 92 :: 117 :: (l ++ q'')).drop 10 = q'' := drop10 x l q'' a2 hl2
                  rw [e2]
                  simp only [List.length_cons, List.length_append] at hk hg
                  exact step _ q'' (by omega) (by omega) h4
                · exact step _ q' (by omega) (by omega) h3
            · exact step _ q' (by omega) (by omega) h3
        · have h0 := h
          unfold Scanned at h
          rw [List.cons_append, scanStr.eq_def] at h
          simp only [] at h
          split at h
          · simp at h
          rename_i hc1
          split at h
          · simp at h
          rename_i hc2
          have hr : Scanned q := scanned_rest [c] q h0 (fun r => scan_plain c r hc1 hc hc2)
          rw [unquote.eq_def]
          simp only []
          rw [if_neg hc, if_neg (by tauto)]
          split
          · exact step [c] q (by omega) (by omega) hr
          · rename_i hb
            rcases decodeRune_cases c q hb with e | ⟨m, r, h1, h2, h3, h4⟩
            · rw [e]
              simp only [List.drop_succ_cons, List.drop_zero]
              exact step _ q (by omega) (by omega) hr
            · have hl := utf8_length m h2
              have hlen := congrArg List.length h3
              simp only [List.length_append, List.length_cons] at hlen
              rw [h4, h3]
              simp only [List.drop_left]
              rw [h3] at h0
              have hr' : Scanned r := scanned_rest (utf8 m) r h0 (fun t => scan_high _ t (utf8_high m h1 h2))
              exact step _ r (by omega) (by omega) hr'

theorem scan_strDoc (bs q r : Bytes) (h : scanStr bs = some (q, r)) : bs = q ++ 34 :: r ∧ StrDoc q ((unquote q.length q).getD []) := by
  obtain ⟨h1, h2⟩ := scan_some bs.length bs q r (le_refl _) h
  obtain ⟨s, hs⟩ := scanned_unquote q.length q q.length (le_refl _) (le_refl _) (h2 [])
  refine ⟨h1, ?_⟩
  rw [hs]
  exact scanned_doc q.length q s q.length (le_refl _) (h2 []) hs

theorem value_shallow (f k : Nat) (bs r : Bytes) (tr : Tree) (h : value (f + 1) k bs = some (tr, r)) :
    ((∃ l, tr = .arr l) ∨ ∃ l, tr = .obj l) → k < maxDepth := by
  intro ht
  rw [value] at h
  generalize skip bs = s at h
  by_contra hk
  match s with
  | [] => simp at h
  | b :: q =>
    simp only [] at h
    rw [if_pos (by omega : maxDepth ≤ k), if_pos (by omega : maxDepth ≤ k)] at h
    have key : ∀ {A : Type} (o : Option A) (g : A → Tree × Bytes), o.map g = some (tr, r) → (∀ a l, (g a).1 ≠ .arr l) → (∀ a l, (g a).1 ≠ .obj l) → False := by
      intro A o g ho h1 h2
      cases o with
      | none => simp at ho
      | some a =>
        simp only [Option.map_some, Option.some.injEq] at ho
        rcases ht with ⟨l, rfl⟩ | ⟨l, rfl⟩
        · exact h1 a l (by rw [ho])
        · exact h2 a l (by rw [ho])
    split at h
    · exact key _ _ h (by simp) (by simp)
    split at h
    · simp at h
    split at h
    · simp at h
    split at h
    · exact key _ _ h (by simp) (by simp)
    split at h
    · exact key _ _ h (by simp) (by simp)
    split at h
    · exact key _ _ h (by simp) (by simp)
    exact key _ _ h (by simp) (by simp)

theorem value_doc (f : Nat) :
    (∀ (k : Nat) (bs r : Bytes) (tr : Tree), value f k bs = some (tr, r) → k ≤ maxDepth →
      ∃ w d, bs = w ++ (d ++ r) ∧ Space w ∧ JDoc (mean tr) d ∧ k + (mean tr).depth ≤ maxDepth) ∧
    (∀ (k : Nat) (bs r : Bytes) (Ts : List Tree), elems f k bs = some (Ts, r) → k ≤ maxDepth →
      ∃ d, bs = d ++ 93 :: r ∧ JItems (meanL Ts) d ∧ meanL Ts ≠ [] ∧ k + depthL (meanL Ts) ≤ maxDepth) ∧
    (∀ (k : Nat) (bs r : Bytes) (Ts : List (Bytes × Tree)), members f k bs = some (Ts, r) → k ≤ maxDepth →
      ∃ d, bs = d ++ 125 :: r ∧ JMembers (meanM Ts) d ∧ meanM Ts ≠ [] ∧ k + depthM (meanM Ts) ≤ maxDepth) := by
  induction f with
  | zero => exact ⟨by simp [value], by simp [elems], by simp [members]⟩
  | succ f ih =>
    obtain ⟨ihv, ihe, ihm⟩ := ih
    refine ⟨?_, ?_, ?_⟩
    · intro k bs r tr h hk
      have hsh := value_shallow f k bs r tr h
      obtain ⟨w, b, q, hw, hb, hh⟩ := value_inv f k bs r tr h
      rcases hh with ⟨rfl, s, rfl, hs⟩ | ⟨rfl, ⟨rfl, hs⟩ | ⟨l, rfl, hs⟩⟩ | ⟨rfl, ⟨rfl, hs⟩ | ⟨l, rfl, hs⟩⟩ | ⟨rfl, hq⟩ | ⟨rfl, hq⟩ | ⟨rfl, hq⟩ | ⟨lit, rfl, hq⟩
      · obtain ⟨h1, h2⟩ := scan_strDoc q s r hs
        simp only [mean, J.depth]
        exact ⟨w, 34 :: (s ++ [34]), by rw [hb, h1]; simp, hw, .str s _ h2, by omega⟩
      · obtain ⟨u, hu, hq⟩ := skip_inv q
        have := hsh (.inl ⟨_, rfl⟩)
        simp only [mean, meanL, J.depth, depthL]
        exact ⟨w, 91 :: (u ++ [93]), by rw [hb, hq, hs]; simp, hw, .arr [] u (.none u hu), by omega⟩
      · have := hsh (.inl ⟨_, rfl⟩)
        obtain ⟨d, h1, h2, _, h4⟩ := ihe (k + 1) q r l hs (by omega)
        simp only [mean, J.depth]
        exact ⟨w, 91 :: (d ++ [93]), by rw [hb, h1]; simp, hw, .arr _ d h2, by omega⟩
      · obtain ⟨u, hu, hq⟩ := skip_inv q
        have := hsh (.inr ⟨_, rfl⟩)
        simp only [mean, meanM, J.depth, depthM]
        exact ⟨w, 123 :: (u ++ [125]), by rw [hb, hq, hs]; simp, hw, .obj [] u (.none u hu), by omega⟩
      · have := hsh (.inr ⟨_, rfl⟩)
        obtain ⟨d, h1, h2, _, h4⟩ := ihm (k + 1) q r l hs (by omega)
        simp only [mean, J.depth]
        exact ⟨w, 123 :: (d ++ [125]), by rw [hb, h1]; simp, hw, .obj _ d h2, by omega⟩
      · simp only [mean, J.depth]
        exact ⟨w, _, by rw [hb, hq], hw, .true, by omega⟩
      · simp only [mean, J.depth]
        exact ⟨w, _, by rw [hb, hq], hw, .false, by omega⟩
      · simp only [mean, J.depth]
        exact ⟨w, _, by rw [hb, hq], hw, .null, by omega⟩
      · obtain ⟨h1, h2⟩ := number_doc _ _ _ hq
        simp only [mean, J.depth]
        exact ⟨w, lit, by rw [hb, h1], hw, .num lit h2, by omega⟩
    · intro k bs r Ts h hk
      rw [elems] at h
      cases hv : value f k bs with
      | none => rw [hv] at h; simp at h
      | some p =>
        obtain ⟨tr, r1⟩ := p
        rw [hv] at h
        simp only [Option.bind_some] at h
        obtain ⟨w, d, h4, h5, h6, h7⟩ := ihv k bs r1 tr hv hk
        obtain ⟨w', hw', hr1⟩ := skip_inv r1
        generalize skip r1 = s at h hr1
        match s with
        | [] => simp at h
        | b :: q =>
          simp only [] at h
          split at h
          · rename_i hb
            subst hb
            cases he : elems f k q with
            | none => rw [he] at h; simp at h
            | some p =>
              obtain ⟨Ts', r2⟩ := p
              rw [he] at h
              simp only [Option.map_some, Option.some.injEq, Prod.mk.injEq] at h
              obtain ⟨rfl, rfl⟩ := h
              obtain ⟨d', h1, h2, h3, h8⟩ := ihe k q r2 Ts' he hk
              simp only [meanL]
              generalize meanL Ts' = l' at h2 h3 h8
              match l' with
              | [] => exact absurd rfl h3
              | y :: l' =>
                refine ⟨w ++ (d ++ (w' ++ 44 :: d')), ?_, .more w w' d d' _ y l' h5 hw' h6 h2, by simp, ?_⟩
                · rw [h4, hr1, h1]
                  simp
                · show k + max _ (depthL (y :: l')) ≤ _
                  omega
          split at h
          · rename_i hb
            subst hb
            simp only [Option.some.injEq, Prod.mk.injEq] at h
            obtain ⟨rfl, rfl⟩ := h
            simp only [meanL]
            refine ⟨w ++ (d ++ w'), ?_, .one w w' d _ h5 hw' h6, by simp, ?_⟩
            · rw [h4, hr1]
              simp
            · simp only [depthL]; omega
          · simp at h
    · intro k bs r Ts h hk
      rw [members] at h
      obtain ⟨w, hw, hbs⟩ := skip_inv bs
      generalize skip bs = s at h hbs
      match s with
      | [] => simp at h
      | b :: q =>
        simp only [] at h
        split at h
        · rename_i hb
          subst hb
          cases hkey : scanStr q with
          | none => rw [hkey] at h; simp at h
          | some p =>
            obtain ⟨key, q1⟩ := p
            rw [hkey] at h
            simp only [Option.bind_some] at h
            obtain ⟨hq, hq'⟩ := scan_strDoc q key q1 hkey
            obtain ⟨u, hu, hq1⟩ := skip_inv q1
            generalize skip q1 = s at h hq1
            match s with
            | [] => simp at h
            | c :: q2 =>
              simp only [] at h
              split at h
              · rename_i hc
                subst hc
                cases hv : value f k q2 with
                | none => rw [hv] at h; simp at h
                | some p =>
                  obtain ⟨tr, r1⟩ := p
                  rw [hv] at h
                  simp only [Option.bind_some] at h
                  obtain ⟨u', d, h4, h5, h6, h7⟩ := ihv k q2 r1 tr hv hk
                  obtain ⟨w', hw', hr1⟩ := skip_inv r1
                  generalize skip r1 = s at h hr1
                  match s with
                  | [] => simp at h
                  | b :: q3 =>
                    simp only [] at h
                    split at h
                    · rename_i hb
                      subst hb
                      cases he : members f k q3 with
                      | none => rw [he] at h; simp at h
                      | some p =>
                        obtain ⟨Ts', r2⟩ := p
                        rw [he] at h
                        simp only [Option.map_some, Option.some.injEq, Prod.mk.injEq] at h
                        obtain ⟨rfl, rfl⟩ := h
                        obtain ⟨d', h1, h2, h3, h8⟩ := ihm k q3 r2 Ts' he hk
                        simp only [meanM]
                        generalize meanM Ts' = l' at h2 h3 h8
                        match l' with
                        | [] => exact absurd rfl h3
                        | y :: l' =>
                          refine ⟨_, ?_, .more w u u' w' key _ d d' _ y l' hw hu h5 hw' hq' h6 h2, by simp, ?_⟩
                          · rw [hbs, hq, hq1, h4, hr1, h1]
                            simp
                          · show k + max _ (depthM (y :: l')) ≤ _
                            omega
                    split at h
                    · rename_i hb
                      subst hb
                      simp only [Option.some.injEq, Prod.mk.injEq] at h
                      obtain ⟨rfl, rfl⟩ := h
                      simp only [meanM]
                      refine ⟨_, ?_, .one w u u' w' key _ d _ hw hu h5 hw' hq' h6, by simp, ?_⟩
                      · rw [hbs, hq, hq1, h4, hr1]
                        simp
                      · simp only [depthM]; omega
                    · simp at h
              · simp at h
        · simp at h

/-- Either the bytes are a document, not too deep, and what it says is stored; or they are none, and nothing is stored. -/
theorem decode_cases (fold : Bytes → Bytes) (t : T) (bs : Bytes) :
    (∃ j, Document j bs ∧ j.depth ≤ maxDepth ∧ jsonDecode fold t bs = store fold t (zero t) j) ∨
      ((¬ ∃ j, Document j bs ∧ j.depth ≤ maxDepth) ∧ jsonDecode fold t bs = (zero t, false)) := by
  by_cases h : ∃ j, Document j bs ∧ j.depth ≤ maxDepth
  · obtain ⟨j, h1, h2⟩ := h
    exact .inl ⟨j, h1, h2, decode_document fold t j bs h1 h2⟩
  · refine .inr ⟨h, ?_⟩
    unfold jsonDecode
    cases hv : value (2 * bs.length + 2) 0 bs with
    | none => rfl
    | some p =>
      obtain ⟨tr, r⟩ := p
      simp only []
      rw [if_neg]
      intro hs
      obtain ⟨w, d, h1, h2, h3, h4⟩ := (value_doc _).1 0 bs r tr hv (by omega)
      obtain ⟨u, hu, hr⟩ := skip_inv r
      rw [hs, List.append_nil] at hr
      subst hr
      exact h ⟨mean tr, ⟨w, d, r, h1, h2, hu, h3⟩, by omega⟩

end Gofer.JsonStruct
