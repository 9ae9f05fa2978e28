import Verif.Proof.Json
import Verif.Spec.JsonDoc
/-
Documents of any writer are read by the model, and it reads nothing else.
-/
namespace Gofer.Json
open Gofer.Spec.Json
open Gofer.Post (all8)

/-! ## Strings that are read -/

theorem hex_iff (b : UInt8) (n : Nat) : Hex b n ↔ isHex b = true ∧ n = unhex b := by
  have h := b.toNat_lt
  unfold Hex
  simp only [isHex, isDigit, unhex, Bool.or_eq_true, Bool.and_eq_true, decide_eq_true_eq, UInt8.le_iff_toNat_le]
  simp only [UInt8.reduceToNat]
  split
  · constructor
    · omega
    · omega
  split
  · constructor <;> omega
  · constructor <;> omega

theorem hex4_getu4 (h : Bytes) (n : Nat) (hh : Hex4 h n) (q : Bytes) :
    getu4 (h ++ q) = some n ∧ h.length = 4 ∧ n < 65536 ∧ (∀ b ∈ h, 32 ≤ b.toNat) ∧
      (scanStr (92 :: 117 :: (h ++ q)) = (scanStr q).map fun p => (92 :: 117 :: (h ++ p.1), p.2)) := by
  obtain ⟨h1, h2, h3, h4, n1, n2, n3, n4, a1, a2, a3, a4⟩ := hh
  have k : ∀ b n, Hex b n → n < 16 ∧ 32 ≤ b.toNat := by
    intro b n h; unfold Hex at h; omega
  have b1 := k _ _ a1
  have b2 := k _ _ a2
  have b3 := k _ _ a3
  have b4 := k _ _ a4
  rw [hex_iff] at a1 a2 a3 a4
  refine ⟨?_, rfl, by omega, ?_, ?_⟩
  · simp only [List.cons_append, List.nil_append, getu4, a1.1, a2.1, a3.1, a4.1]
    rw [if_pos (by decide), a1.2, a2.2, a3.2, a4.2]
  · intro b hb
    simp only [List.mem_cons, List.not_mem_nil, or_false] at hb
    rcases hb with rfl | rfl | rfl | rfl <;> omega
  · exact scan_u h1 h2 h3 h4 q a1.1 a2.1 a3.1 a4.1

theorem scan_doc {q s : Bytes} (h : StrDoc q s) (r : Bytes) : scanStr (q ++ 34 :: r) = some (q, r) := by
  induction h with
  | nil => exact scan_end r
  | raw c q s hc h1 h2 h3 _ ih =>
    by_cases hb : c < 128
    · obtain ⟨b, hb', hu, hn⟩ := utf8_small c hb
      rw [hu]
      simp only [List.cons_append, List.nil_append]
      rw [scan_plain b _ (by rintro rfl; exact h2 hn.symm) (by rintro rfl; exact h3 hn.symm)
        (by rw [UInt8.lt_iff_toNat_lt, hn]; simp; omega), ih]
      rfl
    · rw [List.append_assoc, scan_high _ _ (utf8_high c hc (by omega)), ih]
      rfl
  | letter e b q s he _ ih =>
    simp only [List.cons_append]
    rw [scanStr.eq_def]
    simp only []
    rw [if_neg (by decide), if_pos trivial, if_pos, ih]
    · rfl
    · simp [letters] at he
      tauto
  | u h c q s hh hs _ ih =>
    have := (hex4_getu4 h c hh (q ++ 34 :: r)).2.2.2.2
    simp only [List.cons_append, List.append_assoc]
    rw [this, ih]
    rfl
  | pair h l c q s h1 h2 hh hl _ ih =>
    have a := (hex4_getu4 h _ hh (92 :: 117 :: (l ++ (q ++ 34 :: r)))).2.2.2.2
    have b := (hex4_getu4 l _ hl (q ++ 34 :: r)).2.2.2.2
    simp only [List.cons_append, List.append_assoc]
    rw [a, b, ih]
    rfl
  | lone h n q s hh hs hn _ ih =>
    have := (hex4_getu4 h n hh (q ++ 34 :: r)).2.2.2.2
    simp only [List.cons_append, List.append_assoc]
    rw [this, ih]
    rfl
  | bad b q s hn _ ih =>
    have hb : ¬ b < 128 := by
      intro hb
      apply hn _ (utf8_ascii b hb).1
      rw [(utf8_ascii b hb).2]
      exact ⟨q, rfl⟩
    rw [List.cons_append, scan_plain b _ (by rintro rfl; exact hb (by decide)) (by rintro rfl; exact hb (by decide)) ?_, ih]
    · rfl
    · rw [UInt8.lt_iff_toNat_lt] at hb ⊢
      simp at hb ⊢
      omega

theorem unquote_bs (f : Nat) (e : UInt8) (r : Bytes) : unquote (f + 1) (92 :: e :: r) =
    if e = 34 ∨ e = 92 ∨ e = 47 ∨ e = 39 then (unquote f r).map (e :: ·)
        else if e = 98 then (unquote f r).map (8 :: ·)
        else if e = 102 then (unquote f r).map (12 :: ·)
        else if e = 110 then (unquote f r).map (10 :: ·)
        else if e = 114 then (unquote f r).map (13 :: ·)
        else if e = 116 then (unquote f r).map (9 :: ·)
        else if e = 117 then
          (getu4 r).bind fun rr =>
            if 0xD800 ≤ rr ∧ rr < 0xE000 then
              match getu (r.drop 4) with
              | some lo =>
                if rr < 0xDC00 ∧ 0xDC00 ≤ lo ∧ lo < 0xE000 then
                  (unquote f (r.drop 10)).map (encodeRune (0x10000 + (rr - 0xD800) * 1024 + (lo - 0xDC00)) ++ ·)
                else (unquote f (r.drop 4)).map (encodeRune runeError ++ ·)
              | none => (unquote f (r.drop 4)).map (encodeRune runeError ++ ·)
            else (unquote f (r.drop 4)).map (encodeRune rr ++ ·)
        else none := by
  rw [unquote.eq_def]
  simp only []
  rw [if_pos trivial]
  rfl

theorem unquote_u' (f : Nat) (r : Bytes) : unquote (f + 1) (92 :: 117 :: r) =
          (getu4 r).bind fun rr =>
            if 0xD800 ≤ rr ∧ rr < 0xE000 then
              match getu (r.drop 4) with
              | some lo =>
                if rr < 0xDC00 ∧ 0xDC00 ≤ lo ∧ lo < 0xE000 then
                  (unquote f (r.drop 10)).map (encodeRune (0x10000 + (rr - 0xD800) * 1024 + (lo - 0xDC00)) ++ ·)
                else (unquote f (r.drop 4)).map (encodeRune runeError ++ ·)
              | none => (unquote f (r.drop 4)).map (encodeRune runeError ++ ·)
            else (unquote f (r.drop 4)).map (encodeRune rr ++ ·) := by
  rw [unquote_bs]
  rw [if_neg (by decide), if_neg (by decide), if_neg (by decide), if_neg (by decide), if_neg (by decide),
    if_neg (by decide), if_pos rfl]

/-- `getu` finds the digits that are there. -/
theorem getu_some (s : Bytes) (m : Nat) (h : getu s = some m) : ∃ l q, Hex4 l m ∧ s = 92 :: 117 :: (l ++ q) := by
  unfold getu at h
  split at h
  · rename_i hp
    obtain ⟨t, rfl⟩ := List.isPrefixOf_iff_prefix.1 hp
    simp only [List.cons_append, List.nil_append, List.drop_succ_cons, List.drop_zero] at h ⊢
    unfold getu4 at h
    split at h
    · rename_i h1 h2 h3 h4 r
      split at h
      · rename_i hx
        simp only [Bool.and_eq_true] at hx
        simp only [Option.some.injEq] at h
        subst h
        exact ⟨[h1, h2, h3, h4], r, ⟨h1, h2, h3, h4, _, _, _, _, (hex_iff _ _).2 ⟨hx.1.1.1, rfl⟩, (hex_iff _ _).2 ⟨hx.1.1.2, rfl⟩,
          (hex_iff _ _).2 ⟨hx.1.2, rfl⟩, (hex_iff _ _).2 ⟨hx.2, rfl⟩⟩, rfl⟩
      · simp at h
    · simp at h
  · simp at h

theorem getu4_some (s : Bytes) (m : Nat) (h : getu4 s = some m) : ∃ l q, Hex4 l m ∧ s = l ++ q := by
  obtain ⟨l, q, h1, h2⟩ := getu_some (92 :: 117 :: s) m h
  exact ⟨l, q, h1, by simpa using h2⟩

theorem getu_pre (s : Bytes) : getu (92 :: 117 :: s) = getu4 s := rfl

theorem drop10 (x l q : Bytes) (hx : x.length = 4) (hl : l.length = 4) : (x ++ 92 :: 117 :: (l ++ q)).drop 10 = q := by
  match x, hx, l, hl with
  | [_, _, _, _], _, [_, _, _, _], _ => rfl

theorem encode_error : encodeRune runeError = [0xEF, 0xBF, 0xBD] := by decide

theorem unquote_pair (f : Nat) (x l q : Bytes) (n m c : Nat) (hx : Hex4 x n) (hl : Hex4 l m) (h1 : 0xD800 ≤ n) (h2 : n < 0xDC00)
    (h3 : 0xDC00 ≤ m) (h4 : m < 0xE000) (hc : 0x10000 + (n - 0xD800) * 1024 + (m - 0xDC00) = c) :
    unquote (f + 1) (92 :: 117 :: (x ++ 92 :: 117 :: (l ++ q))) = (unquote f q).map (encodeRune c ++ ·) := by
  obtain ⟨a1, a2, _, _, _⟩ := hex4_getu4 x n hx (92 :: 117 :: (l ++ q))
  obtain ⟨b1, b2, _, _, _⟩ := hex4_getu4 l m hl q
  have e1 : (x ++ 92 :: 117 :: (l ++ q)).drop 4 = 92 :: 117 :: (l ++ q) := by rw [← a2]; exact List.drop_left
  rw [unquote_u', a1]
  simp only [Option.bind_some]
  rw [if_pos (by omega), e1, getu_pre, b1, drop10 x l q a2 b2]
  simp only []
  rw [if_pos (by omega), hc]

theorem unquote_doc {q s : Bytes} (h : StrDoc q s) : ∀ f, q.length ≤ f → unquote f q = some s := by
  induction h with
  | nil => intro f _; cases f <;> rfl
  | raw c q s hc h1 h2 h3 _ ih =>
    intro f hf
    by_cases hb : c < 128
    · obtain ⟨b, hb', hu, hn⟩ := utf8_small c hb
      rw [hu] at hf ⊢
      simp only [List.cons_append, List.nil_append, List.length_cons] at hf ⊢
      match f with
      | 0 => omega
      | f + 1 =>
        rw [unquote.eq_def]
        simp only []
        rw [if_neg (by rintro rfl; exact h3 hn.symm), if_neg, if_pos hb', ih f (by omega)]
        · rfl
        · rintro (rfl | hh)
          · exact h2 hn.symm
          · rw [UInt8.lt_iff_toNat_lt, hn] at hh
            simp at hh
            omega
    · have hl := utf8_length c (by omega)
      rw [List.length_append] at hf
      match f with
      | 0 => omega
      | f + 1 =>
        rw [unquote_high c hc (by omega), ih f (by omega)]
        rfl
  | letter e b q s he _ ih =>
    intro f hf
    simp only [List.length_cons] at hf
    match f with
    | 0 => omega
    | f + 1 =>
      rw [unquote_bs, ih f (by omega)]
      simp only [letters, List.mem_cons, List.not_mem_nil, or_false, Prod.mk.injEq] at he
      rcases he with ⟨rfl, rfl⟩ | ⟨rfl, rfl⟩ | ⟨rfl, rfl⟩ | ⟨rfl, rfl⟩ | ⟨rfl, rfl⟩ | ⟨rfl, rfl⟩ | ⟨rfl, rfl⟩ | ⟨rfl, rfl⟩ <;> rfl
  | u h c q s hh hs _ ih =>
    intro f hf
    obtain ⟨a1, a2, a3, _, _⟩ := hex4_getu4 h c hh q
    simp only [List.length_cons, List.length_append] at hf
    match f with
    | 0 => omega
    | f + 1 =>
      unfold Surrogate at hs
      rw [unquote_u', a1]
      simp only [Option.bind_some]
      have : (h ++ q).drop 4 = q := by rw [← a2]; exact List.drop_left
      rw [if_neg hs, this, ih f (by omega), encodeRune_scalar c (by unfold Scalar; omega)]
      rfl
  | pair h l c q s h1 h2 hh hl _ ih =>
    intro f hf
    obtain ⟨n, hn⟩ : ∃ n, n = 0xD800 + (c - 0x10000) / 1024 := ⟨_, rfl⟩
    obtain ⟨m, hm⟩ : ∃ m, m = 0xDC00 + (c - 0x10000) % 1024 := ⟨_, rfl⟩
    rw [← hn] at hh
    rw [← hm] at hl
    simp only [List.length_cons, List.length_append] at hf
    match f with
    | 0 => omega
    | f + 1 =>
      rw [unquote_pair f h l q n m c hh hl (by omega) (by omega) (by omega) (by omega) (by omega), ih f (by omega),
        encodeRune_scalar c (by unfold Scalar; omega)]
      rfl
  | lone h n q s hh hs hn _ ih =>
    intro f hf
    obtain ⟨a1, a2, a3, _, _⟩ := hex4_getu4 h n hh q
    simp only [List.length_cons, List.length_append] at hf
    match f with
    | 0 => omega
    | f + 1 =>
      rw [unquote_u', a1]
      simp only [Option.bind_some]
      have e1 : (h ++ q).drop 4 = q := by rw [← a2]; exact List.drop_left
      unfold Surrogate at hs
      rw [if_pos hs, e1, ih f (by omega)]
      cases hg : getu q with
      | none => simp only [Option.map_some, encode_error]; rfl
      | some m =>
        simp only []
        rw [if_neg]
        · simp only [Option.map_some, encode_error]; rfl
        · rintro ⟨k1, k2, k3⟩
          obtain ⟨l, q', c1, c2⟩ := getu_some q m hg
          exact hn l m k1 c1 k2 k3 ⟨q', by rw [c2]; rfl⟩
  | bad b q s hn _ ih =>
    intro f hf
    have hb : ¬ b < 128 := by
      intro hb
      apply hn _ (utf8_ascii b hb).1
      rw [(utf8_ascii b hb).2]
      exact ⟨q, rfl⟩
    simp only [List.length_cons] at hf
    match f with
    | 0 => omega
    | f + 1 =>
      rcases decodeRune_cases b q hb with e | ⟨c, q', h1, h2, h3, h4⟩
      · rw [unquote.eq_def]
        simp only []
        rw [if_neg (by rintro rfl; exact hb (by decide)), if_neg, if_neg hb, e]
        · simp only [List.drop_succ_cons, List.drop_zero]
          rw [ih f (by omega), encode_error]
          rfl
        · rintro (rfl | hh)
          · exact hb (by decide)
          · rw [UInt8.lt_iff_toNat_lt] at hb hh
            simp at hb hh
            omega
      · exact absurd ⟨q', h3.symm⟩ (hn c h1)

/-! ## Only such strings are read -/

/-- What is scanned ends with a quote, and what follows does not matter. -/
theorem scan_some (f : Nat) (bs q r : Bytes) (hf : bs.length ≤ f) (h : scanStr bs = some (q, r)) :
    bs = q ++ 34 :: r ∧ ∀ r', scanStr (q ++ 34 :: r') = some (q, r') := by
  induction f generalizing bs q with
  | zero => match bs with
    | [] => simp [scanStr] at h
    | _ :: _ => simp at hf
  | succ f ih => match bs with
    | [] => simp [scanStr] at h
    | c :: bs =>
      simp only [List.length_cons] at hf
      rw [scanStr.eq_def] at h
      simp only [] at h
      split at h
      · rename_i hc
        simp only [Option.some.injEq, Prod.mk.injEq] at h
        obtain ⟨rfl, rfl⟩ := h
        subst hc
        exact ⟨rfl, scan_end⟩
      split at h
      · rename_i hc
        subst hc
        match bs with
        | [] => simp at h
        | e :: bs =>
          simp only [List.length_cons] at hf
          simp only [] at h
          split at h
          · rename_i he
            cases hr : scanStr bs with
            | none => rw [hr] at h; simp at h
            | some p =>
              obtain ⟨q', r'⟩ := p
              rw [hr] at h
              simp only [Option.map_some, Option.some.injEq, Prod.mk.injEq] at h
              obtain ⟨rfl, rfl⟩ := h
              obtain ⟨h1, h2⟩ := ih bs q' (by omega) hr
              refine ⟨by rw [h1]; rfl, fun r' => ?_⟩
              simp only [List.cons_append]
              rw [scanStr.eq_def]
              simp only []
              rw [if_neg (by decide), if_pos trivial, if_pos he, h2]
              rfl
          split at h
          · rename_i he
            subst he
            match bs with
            | [] => simp at h
            | [_] => simp at h
            | [_, _] => simp at h
            | [_, _, _] => simp at h
            | x1 :: x2 :: x3 :: x4 :: bs =>
              simp only [List.length_cons] at hf
              simp only [] at h
              split at h
              · rename_i hx
                simp only [Bool.and_eq_true] at hx
                cases hr : scanStr bs with
                | none => rw [hr] at h; simp at h
                | some p =>
                  obtain ⟨q', r'⟩ := p
                  rw [hr] at h
                  simp only [Option.map_some, Option.some.injEq, Prod.mk.injEq] at h
                  obtain ⟨rfl, rfl⟩ := h
                  obtain ⟨h1, h2⟩ := ih bs q' (by omega) hr
                  refine ⟨by rw [h1]; rfl, fun r' => ?_⟩
                  have := scan_u x1 x2 x3 x4 (q' ++ 34 :: r') hx.1.1.1 hx.1.1.2 hx.1.2 hx.2
                  rw [h2] at this
                  exact this
              · simp at h
          · simp at h
      split at h
      · simp at h
      · rename_i c1 c2 c3
        cases hr : scanStr bs with
        | none => rw [hr] at h; simp at h
        | some p =>
          obtain ⟨q', r'⟩ := p
          rw [hr] at h
          simp only [Option.map_some, Option.some.injEq, Prod.mk.injEq] at h
          obtain ⟨rfl, rfl⟩ := h
          obtain ⟨h1, h2⟩ := ih bs q' (by omega) hr
          refine ⟨by rw [h1]; rfl, fun r' => ?_⟩
          rw [List.cons_append, scan_plain c _ c1 c2 c3, h2]
          rfl

/-- `q` may stand between quotes. -/
def Scanned (q : Bytes) : Prop := scanStr (q ++ [34]) = some (q, [])

/-- If the scan of `p ++ q` is that of `q` with `p` put before it, `q` may stand between quotes if `p ++ q` may. -/
theorem scanned_rest (p q : Bytes) (h : Scanned (p ++ q))
    (hs : ∀ r, scanStr (p ++ r) = (scanStr r).map fun z => (p ++ z.1, z.2)) : Scanned q := by
  unfold Scanned at h ⊢
  rw [List.append_assoc, hs] at h
  cases hr : scanStr (q ++ [34]) with
  | none => rw [hr] at h; simp at h
  | some z =>
    rw [hr] at h
    simp only [Option.map_some, Option.some.injEq, Prod.mk.injEq, List.append_cancel_left_eq] at h
    obtain ⟨h1, h2⟩ := h
    rw [← h1, ← h2]

theorem scan_letter (e : UInt8) (r : Bytes)
    (he : e = 98 ∨ e = 102 ∨ e = 110 ∨ e = 114 ∨ e = 116 ∨ e = 92 ∨ e = 47 ∨ e = 34) :
    scanStr ([92, e] ++ r) = (scanStr r).map fun z => ([92, e] ++ z.1, z.2) := by
  simp only [List.cons_append, List.nil_append]
  rw [scanStr.eq_def]
  simp only []
  rw [if_neg (by decide), if_pos trivial, if_pos he]

theorem scan_hex4 (h : Bytes) (n : Nat) (hh : Hex4 h n) (r : Bytes) :
    scanStr ((92 :: 117 :: h) ++ r) = (scanStr r).map fun z => ((92 :: 117 :: h) ++ z.1, z.2) :=
  (hex4_getu4 h n hh r).2.2.2.2

/-- After a backslash there is one of the letters, or `u` and four digits. -/
theorem scanned_escape (q : Bytes) (h : Scanned (92 :: q)) :
    (∃ e b q', (e, b) ∈ letters ∧ q = e :: q' ∧ Scanned q' ∧ ∀ f, unquote (f + 1) (92 :: q) = (unquote f q').map (b :: ·)) ∨
      ∃ x n q', Hex4 x n ∧ q = 117 :: (x ++ q') ∧ Scanned q' := by
  have h0 := h
  unfold Scanned at h
  rw [List.cons_append, scanStr.eq_def] at h
  simp only [] at h
  rw [if_neg (by decide), if_pos trivial] at h
  match q with
  | [] => simp [scanStr] at h
  | e :: q =>
    simp only [List.cons_append] at h
    split at h
    · rename_i he
      left
      have hr := scanned_rest [92, e] q h0 (fun r => scan_letter e r he)
      rcases he with rfl | rfl | rfl | rfl | rfl | rfl | rfl | rfl
      · exact ⟨98, 8, q, by decide, rfl, hr, fun f => unquote_bs f _ q⟩
      · exact ⟨102, 12, q, by decide, rfl, hr, fun f => unquote_bs f _ q⟩
      · exact ⟨110, 10, q, by decide, rfl, hr, fun f => unquote_bs f _ q⟩
      · exact ⟨114, 13, q, by decide, rfl, hr, fun f => unquote_bs f _ q⟩
      · exact ⟨116, 9, q, by decide, rfl, hr, fun f => unquote_bs f _ q⟩
      · exact ⟨92, 92, q, by decide, rfl, hr, fun f => unquote_bs f _ q⟩
      · exact ⟨47, 47, q, by decide, rfl, hr, fun f => unquote_bs f _ q⟩
      · exact ⟨34, 34, q, by decide, rfl, hr, fun f => unquote_bs f _ q⟩
    split at h
    · rename_i he
      subst he
      right
      have h34 : isHex 34 = false := by decide
      match q with
      | [] => simp at h
      | [x1] => simp at h
      | [x1, x2] => simp at h
      | [x1, x2, x3] => simp [h34] at h
      | x1 :: x2 :: x3 :: x4 :: q =>
        simp only [List.cons_append] at h
        split at h
        · rename_i hx
          simp only [Bool.and_eq_true] at hx
          have hex : Hex4 [x1, x2, x3, x4] (unhex x1 * 4096 + unhex x2 * 256 + unhex x3 * 16 + unhex x4) :=
            ⟨x1, x2, x3, x4, _, _, _, _, (hex_iff _ _).2 ⟨hx.1.1.1, rfl⟩, (hex_iff _ _).2 ⟨hx.1.1.2, rfl⟩,
              (hex_iff _ _).2 ⟨hx.1.2, rfl⟩, (hex_iff _ _).2 ⟨hx.2, rfl⟩⟩
          exact ⟨_, _, q, hex, rfl, scanned_rest (92 :: 117 :: [x1, x2, x3, x4]) q h0 (scan_hex4 _ _ hex)⟩
        · simp at h
    · simp at h

theorem scanned_doc (k : Nat) (q s : Bytes) (g : Nat) (hk : q.length ≤ k) (h : Scanned q) (hu : unquote g q = some s) :
    StrDoc q s := by
  induction k generalizing q s g with
  | zero => match q with
    | [] => cases g <;> (simp [unquote] at hu; subst hu; exact .nil)
    | _ :: _ => simp at hk
  | succ k ih => match q with
    | [] => cases g <;> (simp [unquote] at hu; subst hu; exact .nil)
    | c :: q =>
      simp only [List.length_cons] at hk
      match g with
      | 0 => simp [unquote] at hu
      | g + 1 =>
        have step : ∀ (p q' : Bytes) (m : Nat), q'.length ≤ k → Scanned q' → (unquote m q').map (p ++ ·) = some s →
            ∃ s', s = p ++ s' ∧ StrDoc q' s' := by
          intro p q' m h1 h2 h3
          cases hr : unquote m q' with
          | none => rw [hr] at h3; simp at h3
          | some s' =>
            rw [hr] at h3
            simp only [Option.map_some, Option.some.injEq] at h3
            exact ⟨s', h3.symm, ih q' s' m h1 h2 hr⟩
        by_cases hc : c = 92
        · subst hc
          rcases scanned_escape q h with ⟨e, b, q', h1, h2, h3, h4⟩ | ⟨x, n, q', h1, h2, h3⟩
          · rw [h4] at hu
            subst h2
            simp only [List.length_cons] at hk
            obtain ⟨s', rfl, hs⟩ := step [b] q' g (by omega) h3 hu
            exact .letter e b q' s' h1 hs
          · subst h2
            obtain ⟨a1, a2, a3, _, _⟩ := hex4_getu4 x n h1 q'
            have e1 : (x ++ q').drop 4 = q' := by rw [← a2]; exact List.drop_left
            simp only [List.length_cons, List.length_append] at hk
            rw [unquote_u', a1] at hu
            simp only [Option.bind_some, e1] at hu
            have lone : Surrogate n →
                (∀ l m, n < 0xDC00 → Hex4 l m → 0xDC00 ≤ m → m < 0xE000 → ¬ 92 :: 117 :: l <+: q') →
                (unquote g q').map (encodeRune runeError ++ ·) = some s →
                StrDoc (92 :: 117 :: (x ++ q')) s := by
              intro hs hn hu
              obtain ⟨s', rfl, hs'⟩ := step _ q' g (by omega) h3 hu
              rw [encode_error]
              exact .lone x n q' s' h1 hs hn hs'
            split at hu
            · rename_i hs
              cases hg : getu q' with
              | none =>
                rw [hg] at hu
                refine lone hs ?_ hu
                intro l m _ hl _ _ ⟨t, ht⟩
                have := (hex4_getu4 l m hl t).1
                have e2 : getu q' = getu4 (l ++ t) := by rw [← ht]; exact getu_pre _
                rw [e2, this] at hg
                simp at hg
              | some m =>
                rw [hg] at hu
                simp only [] at hu
                split at hu
                · rename_i hm
                  obtain ⟨l, q'', hl, hq⟩ := getu_some q' m hg
                  have hl2 := (hex4_getu4 l m hl q'').2.1
                  subst hq
                  have h4 : Scanned q'' := scanned_rest (92 :: 117 :: l) q'' h3 (scan_hex4 l m hl)
                  have e2 : (x ++ 92 :: 117 :: (l ++ q'')).drop 10 = q'' := drop10 x l q'' a2 hl2
                  rw [e2] at hu
                  simp only [List.length_cons, List.length_append] at hk
                  generalize hc : 0x10000 + (n - 0xD800) * 1024 + (m - 0xDC00) = c at hu
                  obtain ⟨s', rfl, hs'⟩ := step _ q'' g (by omega) h4 hu
                  rw [encodeRune_scalar c (by unfold Scalar; omega)]
                  refine .pair x l c q'' s' (by omega) (by omega) ?_ ?_ hs'
                  · have : 0xD800 + (c - 0x10000) / 1024 = n := by omega
                    rw [this]; exact h1
                  · have : 0xDC00 + (c - 0x10000) % 1024 = m := by omega
                    rw [this]; exact hl
                · rename_i hm
                  refine lone hs ?_ hu
                  intro l m' k1 hl k2 k3 ⟨t, ht⟩
                  have := (hex4_getu4 l m' hl t).1
                  have e2 : getu q' = getu4 (l ++ t) := by rw [← ht]; exact getu_pre _
                  rw [e2, this] at hg
                  simp only [Option.some.injEq] at hg
                  subst hg
                  exact hm ⟨k1, k2, k3⟩
            · rename_i hs
              obtain ⟨s', rfl, hs'⟩ := step _ q' g (by omega) h3 hu
              rw [encodeRune_scalar n (by unfold Scalar; omega)]
              exact .u x n q' s' h1 hs hs'
        · have h0 := h
          unfold Scanned at h
          rw [List.cons_append, scanStr.eq_def] at h
          simp only [] at h
          split at h
          · simp at h
          rename_i hc1
          split at h
          · simp at h
          rename_i hc2
          have hr : Scanned q := scanned_rest [c] q h0 (fun r => scan_plain c r hc1 hc hc2)
          rw [unquote.eq_def] at hu
          simp only [] at hu
          rw [if_neg hc, if_neg (by tauto)] at hu
          have hc3 : 32 ≤ c.toNat := by
            rw [UInt8.lt_iff_toNat_lt] at hc2
            simpa using hc2
          split at hu
          · rename_i hb
            obtain ⟨s', rfl, hs'⟩ := step [c] q g (by omega) hr hu
            have := StrDoc.raw c.toNat q s' (utf8_ascii c hb).1 (by omega) (by intro h; exact hc1 (UInt8.toNat_inj.1 h))
              (by intro h; exact hc (UInt8.toNat_inj.1 h)) hs'
            rw [(utf8_ascii c hb).2] at this
            exact this
          · rename_i hb
            rcases decodeRune_cases c q hb with e | ⟨m, r, h1, h2, h3, h4⟩
            · rw [e] at hu
              simp only [List.drop_succ_cons, List.drop_zero] at hu
              obtain ⟨s', rfl, hs'⟩ := step _ q g (by omega) hr hu
              rw [encode_error]
              refine .bad c q s' ?_ hs'
              intro m hm ⟨r, hr⟩
              by_cases hm2 : m < 128
              · obtain ⟨b', hb', hu, _⟩ := utf8_small m hm2
                rw [hu] at hr
                simp only [List.cons_append, List.nil_append, List.cons.injEq] at hr
                rw [hr.1] at hb'
                exact hb hb'
              · have := decodeRune_utf8 m hm (by omega) r
                rw [hr, e] at this
                have h2 := utf8_length m (by omega)
                simp only [Prod.mk.injEq] at this
                omega
            · have hl := utf8_length m h2
              have hlen := congrArg List.length h3
              simp only [List.length_append, List.length_cons] at hlen
              rw [h4, h3] at hu
              simp only [List.drop_left] at hu
              rw [h3] at h0 ⊢
              have hr' : Scanned r := scanned_rest (utf8 m) r h0 (fun t => scan_high _ t (utf8_high m h1 h2))
              obtain ⟨s', rfl, hs'⟩ := step _ r g (by omega) hr' hu
              rw [encodeRune_scalar m h1]
              exact .raw m r s' h1 (by omega) (by omega) (by omega) hs'

end Gofer.Json
