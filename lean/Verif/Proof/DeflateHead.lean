import Verif.Proof.DeflateBody
/-!
# Headers of blocks, blocks, and streams
-/
namespace Gofer.Inflate
open Gofer.Spec.Deflate

/-! ## The lengths of the codes -/

theorem clens_iff (n : Nat) (b : Bits) (g : List Nat) (r : Bits) :
    clens n b = some (g, r) ↔ ∃ gs : List Bits, gs.length = n ∧ (∀ x ∈ gs, x.length = 3) ∧ b = gs.flatten ++ r ∧ g = gs.map low := by
  induction n generalizing b g with
  | zero =>
    simp only [clens, Option.some.injEq, Prod.mk.injEq]
    constructor
    · rintro ⟨rfl, rfl⟩
      exact ⟨[], rfl, by simp, by simp, rfl⟩
    · rintro ⟨gs, h1, _, h3, h4⟩
      have : gs = [] := List.eq_nil_of_length_eq_zero h1
      subst this
      simp at h3 h4
      exact ⟨h4.symm, h3⟩
  | succ n ih =>
    rw [clens]
    constructor
    · intro h
      cases h1 : take 3 b with
      | none => rw [h1] at h; simp at h
      | some p =>
        obtain ⟨x, b1⟩ := p
        rw [h1] at h
        simp only [] at h
        obtain ⟨e, he, rfl, rfl⟩ := (take_iff _ _ _ _).1 h1
        cases h2 : clens n b1 with
        | none => rw [h2] at h; simp at h
        | some p =>
          obtain ⟨l, b2⟩ := p
          rw [h2] at h
          simp only [Option.some.injEq, Prod.mk.injEq] at h
          obtain ⟨rfl, rfl⟩ := h
          obtain ⟨gs, k1, k2, k3, k4⟩ := (ih _ _).1 h2
          refine ⟨e :: gs, by simp [k1], ?_, by simp [k3], by simp [k4]⟩
          intro x hx
          rcases List.mem_cons.1 hx with rfl | hx
          · exact he
          · exact k2 x hx
    · rintro ⟨gs, h1, h2, rfl, rfl⟩
      cases gs with
      | nil => simp at h1
      | cons e gs =>
        rw [List.flatten_cons, List.append_assoc, (take_iff 3 _ (low e) (gs.flatten ++ r)).2 ⟨e, h2 e (by simp), rfl, rfl⟩]
        simp only []
        rw [(ih (gs.flatten ++ r) (gs.map low)).2 ⟨gs, by simpa using h1, fun x hx => h2 x (by simp [hx]), rfl, rfl⟩]
        rfl

theorem set_zip (ks g a : List Nat) (hk : ks.Nodup) (s : Nat) (hs : s < a.length) :
    ((ks.zip g).foldl (fun a p => a.set p.1 p.2) a)[s]? = some (if s ∈ ks then (g[ks.idxOf s]?).getD a[s] else a[s]) := by
  induction ks generalizing g a with
  | nil => simp [hs]
  | cons k ks ih =>
    cases g with
    | nil => simp [hs]
    | cons x g =>
      rw [List.zip_cons_cons, List.foldl_cons]
      simp only []
      have hk' := List.nodup_cons.1 hk
      rw [ih g (a.set k x) hk'.2 (by simpa using hs)]
      by_cases hks : k = s
      · subst hks
        rw [if_neg hk'.1]
        simp
      · rw [List.getElem_set_ne hks]
        have h1 : (s ∈ k :: ks) ↔ s ∈ ks := by
          simp only [List.mem_cons]
          exact ⟨fun h => h.resolve_left (fun h => hks h.symm), .inr⟩
        have h2 : (k :: ks).idxOf s = ks.idxOf s + 1 := by
          have : (k == s) = false := by simpa using hks
          simp [List.idxOf_cons, this]
        simp only [h1, h2, List.getElem?_cons_succ]

theorem codebits_eq (g : List Nat) : codebits g = lengthCode g := by
  have hord : ∀ s < 19, s ∈ codeOrder := by decide
  have hlen : (codebits g).length = 19 := by
    unfold codebits
    have : ∀ (l : List (Nat × Nat)) (a : List Nat), (l.foldl (fun a p => a.set p.1 p.2) a).length = a.length := by
      intro l
      induction l with
      | nil => intro a; rfl
      | cons p l ih => intro a; rw [List.foldl_cons, ih]; simp
    rw [this]
    simp
  apply List.ext_getElem?
  intro s
  by_cases hs : s < 19
  · unfold codebits
    rw [set_zip codeOrder g (List.replicate 19 0) (by decide) s (by simpa using hs), if_pos (hord s hs)]
    unfold lengthCode
    rw [List.getElem?_map, List.getElem?_range hs]
    simp only [List.getElem_replicate, Option.map_some]
    rfl
  · rw [List.getElem?_eq_none (by omega), List.getElem?_eq_none (by simp [lengthCode]; omega)]

theorem lengthCode_le (gs : List Bits) (h : ∀ x ∈ gs, x.length = 3) : ∀ x ∈ lengthCode (gs.map low), x ≤ 15 := by
  intro x hx
  simp only [lengthCode, List.mem_map, List.mem_range] at hx
  obtain ⟨s, _, rfl⟩ := hx
  cases hg : (gs.map low)[order.idxOf s]? with
  | none => simp
  | some v =>
    have := List.mem_of_getElem? hg
    simp only [List.mem_map] at this
    obtain ⟨e, he, rfl⟩ := this
    have h1 := low_lt e
    rw [h e he] at h1
    simp only [Option.getD_some]
    omega

theorem runs_len {C a a' : List Nat} {r : Bits} (h : Runs C a r a') : a.length ≤ a'.length ∧ (a.length = a'.length → r = [] ∧ a = a') := by
  induction h with
  | done => simp
  | one a a' c r v _ _ _ ih => simp only [List.length_append, List.length_singleton] at ih; exact ⟨by omega, fun h => by omega⟩
  | same a a' c e r v _ _ _ _ ih => simp only [List.length_append, List.length_replicate] at ih; exact ⟨by omega, fun h => by omega⟩
  | zeros a a' c e r _ _ _ ih => simp only [List.length_append, List.length_replicate] at ih; exact ⟨by omega, fun h => by omega⟩
  | many a a' c e r _ _ _ ih => simp only [List.length_append, List.length_replicate] at ih; exact ⟨by omega, fun h => by omega⟩

theorem runs_le {C a a' : List Nat} {r : Bits} (h : Runs C a r a') (ha : ∀ x ∈ a, x ≤ 15) : ∀ x ∈ a', x ≤ 15 := by
  induction h with
  | done => exact ha
  | one a a' c r v hv _ _ ih =>
    refine ih ?_
    intro x hx
    rcases List.mem_append.1 hx with hx | hx
    · exact ha x hx
    · simp at hx; omega
  | same a a' c e r v _ _ hl _ ih =>
    refine ih ?_
    intro x hx
    rcases List.mem_append.1 hx with hx | hx
    · exact ha x hx
    · rw [List.eq_of_mem_replicate hx]
      exact ha v (List.mem_of_getLast? hl)
  | zeros a a' c e r _ _ _ ih =>
    refine ih ?_
    intro x hx
    rcases List.mem_append.1 hx with hx | hx
    · exact ha x hx
    · rw [List.eq_of_mem_replicate hx]; omega
  | many a a' c e r _ _ _ ih =>
    refine ih ?_
    intro x hx
    rcases List.mem_append.1 hx with hx | hx
    · exact ha x hx
    · rw [List.eq_of_mem_replicate hx]; omega

theorem runs_read {C : List Nat} {h : Huff} (hC : Reads (huffSym h) C) {a a' : List Nat} {r : Bits} (hr : Runs C a r a') (t : Bits) (fuel : Nat)
    (hf : r.length < fuel) : runs h a'.length fuel a (r ++ t) = some (a', t) := by
  have pos : ∀ {s c}, Code C s c → 0 < c.length := by
    rintro s c ⟨_, _, h2, h3, _⟩
    omega
  induction hr generalizing fuel with
  | done a =>
    obtain ⟨fuel, rfl⟩ : ∃ f, fuel = f + 1 := ⟨fuel - 1, by omega⟩
    rw [runs, if_pos (le_refl _)]
    simp
  | one a a' c r v hv hc hr ih =>
    obtain ⟨fuel, rfl⟩ : ∃ f, fuel = f + 1 := ⟨fuel - 1, by omega⟩
    have hl := (runs_len hr).1
    simp only [List.length_append, List.length_singleton] at hl
    have := pos hc
    rw [runs, if_neg (by omega), List.append_assoc, (hC _ v (r ++ t)).2 ⟨c, hc, rfl⟩]
    simp only []
    rw [if_pos hv]
    exact ih fuel (by simp at hf; omega)
  | same a a' c e r v hc he hv hr ih =>
    obtain ⟨fuel, rfl⟩ : ∃ f, fuel = f + 1 := ⟨fuel - 1, by omega⟩
    have hl := (runs_len hr).1
    simp only [List.length_append, List.length_replicate] at hl
    have := pos hc
    have eb : c ++ (e ++ r) ++ t = c ++ (e ++ (r ++ t)) := by simp
    rw [runs, if_neg (by omega), eb, (hC _ 16 (e ++ (r ++ t))).2 ⟨c, hc, rfl⟩]
    simp only [hv, Option.map_some, if_true]
    rw [if_neg (by omega), (take_iff 2 _ (low e) (r ++ t)).2 ⟨e, he, rfl, rfl⟩]
    simp only []
    rw [if_neg (by omega)]
    exact ih fuel (by simp at hf; omega)
  | zeros a a' c e r hc he hr ih =>
    obtain ⟨fuel, rfl⟩ : ∃ f, fuel = f + 1 := ⟨fuel - 1, by omega⟩
    have hl := (runs_len hr).1
    simp only [List.length_append, List.length_replicate] at hl
    have := pos hc
    have eb : c ++ (e ++ r) ++ t = c ++ (e ++ (r ++ t)) := by simp
    rw [runs, if_neg (by omega), eb, (hC _ 17 (e ++ (r ++ t))).2 ⟨c, hc, rfl⟩]
    simp only []
    rw [if_neg (by omega), if_neg (by omega), if_pos trivial]
    simp only []
    rw [(take_iff 3 _ (low e) (r ++ t)).2 ⟨e, he, rfl, rfl⟩]
    simp only []
    rw [if_neg (by omega)]
    exact ih fuel (by simp at hf; omega)
  | many a a' c e r hc he hr ih =>
    obtain ⟨fuel, rfl⟩ : ∃ f, fuel = f + 1 := ⟨fuel - 1, by omega⟩
    have hl := (runs_len hr).1
    simp only [List.length_append, List.length_replicate] at hl
    have := pos hc
    have eb : c ++ (e ++ r) ++ t = c ++ (e ++ (r ++ t)) := by simp
    rw [runs, if_neg (by omega), eb, (hC _ 18 (e ++ (r ++ t))).2 ⟨c, hc, rfl⟩]
    simp only []
    rw [if_neg (by omega), if_neg (by omega), if_neg (by omega)]
    simp only []
    rw [(take_iff 7 _ (low e) (r ++ t)).2 ⟨e, he, rfl, rfl⟩]
    simp only []
    rw [if_neg (by omega)]
    exact ih fuel (by simp at hf; omega)

theorem runs_sound {C : List Nat} {h : Huff} (hC : Reads (huffSym h) C) (h19 : C.length = 19) (n fuel : Nat) (a a' : List Nat) (b t : Bits)
    (hr : runs h n fuel a b = some (a', t)) (hn : a.length ≤ n) : ∃ r, b = r ++ t ∧ Runs C a r a' ∧ a'.length = n := by
  induction fuel generalizing a b with
  | zero => simp [runs] at hr
  | succ fuel ih =>
    rw [runs] at hr
    by_cases hle : n ≤ a.length
    · rw [if_pos hle] at hr
      simp only [Option.some.injEq, Prod.mk.injEq] at hr
      obtain ⟨rfl, rfl⟩ := hr
      exact ⟨[], rfl, .done a, by omega⟩
    · rw [if_neg hle] at hr
      cases h1 : huffSym h b with
      | none => rw [h1] at hr; simp at hr
      | some p =>
        obtain ⟨x, b1⟩ := p
        rw [h1] at hr
        simp only [] at hr
        obtain ⟨c, hc, rfl⟩ := (hC _ _ _).1 h1
        have hx : x < 19 := by
          obtain ⟨_, k, _⟩ := hc
          rw [← h19]
          exact (List.getElem?_eq_some_iff.1 k).1
        by_cases h16 : x < 16
        · rw [if_pos h16] at hr
          obtain ⟨r, rfl, k1, k2⟩ := ih _ _ hr (by simp; omega)
          exact ⟨c ++ r, by simp, .one a a' c r x h16 hc k1, k2⟩
        · rw [if_neg h16] at hr
          by_cases e16 : x = 16
          · subst e16
            rw [if_pos rfl] at hr
            cases hg : a.getLast? with
            | none => rw [hg] at hr; simp at hr
            | some v =>
              rw [hg] at hr
              simp only [Option.map_some] at hr
              cases h2 : take 2 b1 with
              | none => rw [h2] at hr; simp at hr
              | some p =>
                obtain ⟨y, b2⟩ := p
                rw [h2] at hr
                simp only [] at hr
                obtain ⟨e, he, rfl, rfl⟩ := (take_iff _ _ _ _).1 h2
                by_cases hgt : a.length + (3 + low e) > n
                · rw [if_pos hgt] at hr; simp at hr
                · rw [if_neg hgt] at hr
                  obtain ⟨r, rfl, k1, k2⟩ := ih _ _ hr (by simp; omega)
                  exact ⟨c ++ (e ++ r), by simp, .same a a' c e r v hc he hg k1, k2⟩
          · rw [if_neg e16] at hr
            by_cases e17 : x = 17
            · subst e17
              rw [if_pos rfl] at hr
              simp only [] at hr
              cases h2 : take 3 b1 with
              | none => rw [h2] at hr; simp at hr
              | some p =>
                obtain ⟨y, b2⟩ := p
                rw [h2] at hr
                simp only [] at hr
                obtain ⟨e, he, rfl, rfl⟩ := (take_iff _ _ _ _).1 h2
                by_cases hgt : a.length + (3 + low e) > n
                · rw [if_pos hgt] at hr; simp at hr
                · rw [if_neg hgt] at hr
                  obtain ⟨r, rfl, k1, k2⟩ := ih _ _ hr (by simp; omega)
                  exact ⟨c ++ (e ++ r), by simp, .zeros a a' c e r hc he k1, k2⟩
            · rw [if_neg e17] at hr
              have e18 : x = 18 := by omega
              subst e18
              simp only [] at hr
              cases h2 : take 7 b1 with
              | none => rw [h2] at hr; simp at hr
              | some p =>
                obtain ⟨y, b2⟩ := p
                rw [h2] at hr
                simp only [] at hr
                obtain ⟨e, he, rfl, rfl⟩ := (take_iff _ _ _ _).1 h2
                by_cases hgt : a.length + (11 + low e) > n
                · rw [if_pos hgt] at hr; simp at hr
                · rw [if_neg hgt] at hr
                  obtain ⟨r, rfl, k1, k2⟩ := ih _ _ hr (by simp; omega)
                  exact ⟨c ++ (e ++ r), by simp, .many a a' c e r hc he k1, k2⟩

/-! ## `readHuffman` -/

/-- The two decoders are those of the codes. -/
def Pair (h1 h2 : Huff) (L D : List Nat) : Prop := Decodes h1 L ∧ Fair h1 L ∧ Reads (distSym (some h2)) D

theorem pair_init {L D : List Nat} {h1 h2 : Huff} (i1 : init L = some h1) (d1 : Decodes h1 L) (i2 : init D = some h2) (d2 : Decodes h2 D) (m : Nat)
    (hm : ∀ n, L[256]? = some n → m = n) : Pair { h1 with min := if h1.min < m then m else h1.min } h2 L D := by
  refine ⟨d1, ?_, reads_init i2 d2⟩
  intro n hn
  have := hm n hn
  subst this
  simp only []
  by_cases h : h1.min < m
  · rw [if_pos h]
    exact .inl (le_refl _)
  · rw [if_neg h]
    exact .inr fun s c hc => init_min i1 s c hc

theorem codes_read {L D : List Nat} {h : Bits} (hc : Codes L D h) : ∃ h1 h2, (∀ t, readHuffman (h ++ t) = some (h1, h2, t)) ∧ Pair h1 h2 L D := by
  obtain ⟨a, b, c, r, g, rfl, ha, hb, hcl, hg, hgl, hL, hD, hL', hD', hT, hR, hTL, hTD⟩ := hc
  obtain ⟨hc', ic, dc⟩ := init_tree hT
  obtain ⟨h1, i1, d1⟩ := init_tree hTL
  obtain ⟨h2, i2, d2⟩ := init_tree hTD
  refine ⟨{ h1 with min := if h1.min < (L ++ D)[256]?.getD 0 then (L ++ D)[256]?.getD 0 else h1.min }, h2, ?_, pair_init i1 d1 i2 d2 _ ?_⟩
  · intro t
    have eb : a ++ (b ++ (c ++ (g.flatten ++ r))) ++ t = a ++ (b ++ (c ++ (g.flatten ++ (r ++ t)))) := by simp
    unfold readHuffman
    rw [eb, (take_iff 5 _ (low a) (b ++ (c ++ (g.flatten ++ (r ++ t))))).2 ⟨a, ha, rfl, rfl⟩]
    simp only []
    rw [(take_iff 5 _ (low b) (c ++ (g.flatten ++ (r ++ t)))).2 ⟨b, hb, rfl, rfl⟩]
    simp only []
    rw [(take_iff 4 _ (low c) (g.flatten ++ (r ++ t))).2 ⟨c, hcl, rfl, rfl⟩]
    simp only []
    rw [if_neg (by omega), (clens_iff (low c + 4) _ (g.map low) (r ++ t)).2 ⟨g, hgl, hg, rfl, rfl⟩]
    simp only []
    rw [codebits_eq, ic]
    simp only []
    have hlen : low a + 257 + (low b + 1) = (L ++ D).length := by simp; omega
    rw [hlen, runs_read (reads_init ic dc) hR t _ (by simp; omega)]
    simp only []
    rw [← hL, List.take_left', List.drop_left', i1, i2]
    · rfl
    · rfl
  · intro n hn
    rw [List.getElem?_append_left (by omega), hn]
    rfl

theorem codes_sound {b r : Bits} {h1 h2 : Huff} (h : readHuffman b = some (h1, h2, r)) : ∃ L D hd, b = hd ++ r ∧ Codes L D hd ∧ Pair h1 h2 L D := by
  unfold readHuffman at h
  cases e1 : take 5 b with
  | none => rw [e1] at h; simp at h
  | some p =>
    obtain ⟨x1, b1⟩ := p
    rw [e1] at h
    simp only [] at h
    obtain ⟨a, ha, rfl, rfl⟩ := (take_iff _ _ _ _).1 e1
    cases e2 : take 5 b1 with
    | none => rw [e2] at h; simp at h
    | some p =>
      obtain ⟨x2, b2⟩ := p
      rw [e2] at h
      simp only [] at h
      obtain ⟨bb, hb, rfl, rfl⟩ := (take_iff _ _ _ _).1 e2
      cases e3 : take 4 b2 with
      | none => rw [e3] at h; simp at h
      | some p =>
        obtain ⟨x3, b3⟩ := p
        rw [e3] at h
        simp only [] at h
        obtain ⟨c, hcl, rfl, rfl⟩ := (take_iff _ _ _ _).1 e3
        by_cases hlim : low a + 257 > 286 ∨ low bb + 1 > 30
        · rw [if_pos hlim] at h; simp at h
        · rw [if_neg hlim] at h
          cases e4 : clens (low c + 4) b3 with
          | none => rw [e4] at h; simp at h
          | some p =>
            obtain ⟨g, b4⟩ := p
            rw [e4] at h
            simp only [] at h
            obtain ⟨gs, k1, k2, rfl, rfl⟩ := (clens_iff _ _ _ _).1 e4
            rw [codebits_eq] at h
            cases e5 : init (lengthCode (gs.map low)) with
            | none => rw [e5] at h; simp at h
            | some hc =>
              rw [e5] at h
              simp only [] at h
              obtain ⟨hT, dC, _⟩ := (init_iff _ (lengthCode_le gs k2) hc).1 e5
              cases e6 : runs hc (low a + 257 + (low bb + 1)) (b4.length + 1) [] b4 with
              | none => rw [e6] at h; simp at h
              | some p =>
                obtain ⟨l, b5⟩ := p
                rw [e6] at h
                simp only [] at h
                obtain ⟨rr, rfl, hR, hRl⟩ := runs_sound (reads_init e5 dC) (by simp [lengthCode]) _ _ _ _ _ _ e6 (by simp)
                have hle := runs_le hR (by simp)
                cases e7 : init (l.take (low a + 257)) with
                | none => rw [e7] at h; simp at h
                | some g1 =>
                  cases e8 : init (l.drop (low a + 257)) with
                  | none => rw [e7, e8] at h; simp at h
                  | some g2 =>
                    rw [e7, e8] at h
                    simp only [Option.some.injEq, Prod.mk.injEq] at h
                    obtain ⟨rfl, rfl, rfl⟩ := h
                    obtain ⟨t1, d1, _⟩ := (init_iff _ (fun x hx => hle x (List.mem_of_mem_take hx)) g1).1 e7
                    obtain ⟨t2, d2, _⟩ := (init_iff _ (fun x hx => hle x (List.mem_of_mem_drop hx)) g2).1 e8
                    refine ⟨l.take (low a + 257), l.drop (low a + 257), a ++ (bb ++ (c ++ (gs.flatten ++ rr))), by simp,
                      ⟨a, bb, c, rr, gs, rfl, ha, hb, hcl, k2, k1, by simp; omega, by simp; omega, by simp; omega, by simp; omega, hT, ?_, t1, t2⟩,
                      pair_init e7 d1 e8 d2 _ ?_⟩
                    · rw [List.take_append_drop]; exact hR
                    · intro n hn
                      rw [List.getElem?_take, if_pos (by omega)] at hn
                      rw [hn]
                      rfl

theorem codes_ext {b r : Bits} {h1 h2 : Huff} (h : readHuffman b = some (h1, h2, r)) (c : Bits) : readHuffman (b ++ c) = some (h1, h2, r ++ c) := by
  obtain ⟨L, D, hd, rfl, hc, _⟩ := codes_sound h
  obtain ⟨g1, g2, hr, _⟩ := codes_read hc
  rw [hr r] at h
  simp only [Option.some.injEq, Prod.mk.injEq] at h
  rw [List.append_assoc, hr, h.1, h.2.1]

end Gofer.Inflate
