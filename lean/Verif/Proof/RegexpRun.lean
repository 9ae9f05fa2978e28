import Verif.Model.Regexp
import Mathlib.Logic.Relation
import Mathlib.Data.List.Nodup
import Mathlib.Data.List.Perm.Subperm
/-!
# The search: both engines find a match if there is one, and stop soon
-/
namespace Gofer.Regexp
open Relation

variable (fold : Nat → Nat → Bool) (p : Prog) (w : List Nat)

/-- Where one instruction leads. -/
def succ (x : Nat × Nat) : List (Nat × Nat) :=
  match p[x.1]? with
  | some (.alt o a) => [(o, x.2), (a, x.2)]
  | some (.place q o) => if placeOk w x.2 q then [(o, x.2)] else []
  | some (.nop o) => [(o, x.2)]
  | some (.cap _ o) => [(o, x.2)]
  | some (.rune t o) => if w[x.2]?.any fun r => t.ok fold r then [(o, x.2 + 1)] else []
  | _ => []

def Reach (x y : Nat × Nat) : Prop := ReflTransGen (fun x y => y ∈ succ fold p w x) x y

/-- A match can be reached. -/
def Wins (x : Nat × Nat) : Prop := ∃ y, Reach fold p w x y ∧ p[y.1]? = some .mtch

def Inst.targets : Inst → List Nat
  | .alt o a => [o, a]
  | .place _ o => [o]
  | .nop o => [o]
  | .cap _ o => [o]
  | .rune _ o => [o]
  | _ => []

/-- Instructions lead to instructions. -/
def Closed (p : Prog) : Prop := ∀ (pc : Nat) (x : Inst), p[pc]? = some x → ∀ o ∈ x.targets, o < p.length

theorem succ_lt {p : Prog} {w : List Nat} {fold : Nat → Nat → Bool} (hc : Closed p) {x y : Nat × Nat} (h : y ∈ succ fold p w x) (hx : x.2 ≤ w.length) : y.1 < p.length ∧ y.2 ≤ w.length := by
  unfold succ at h
  split at h
  · rename_i o a e
    have := hc _ _ e
    simp [Inst.targets] at this
    simp at h
    rcases h with rfl | rfl <;> simp [this, hx]
  · rename_i q o e
    have := hc _ _ e
    simp [Inst.targets] at this
    split at h <;> simp at h
    subst h; simp [this, hx]
  · rename_i o e
    have := hc _ _ e
    simp [Inst.targets] at this
    simp at h
    subst h; simp [this, hx]
  · rename_i o e
    have := hc _ _ e
    simp [Inst.targets] at this
    simp at h
    subst h; simp [this, hx]
  · rename_i t o e
    have := hc _ _ e
    simp [Inst.targets] at this
    split at h <;> simp at h
    rename_i hr
    subst h
    refine ⟨this, ?_⟩
    cases hw : w[x.2]? with
    | none => rw [hw] at hr; simp at hr
    | some r => exact (List.getElem?_eq_some_iff.1 hw).1
  · simp at h

theorem wins_step {x : Nat × Nat} : Wins fold p w x ↔ p[x.1]? = some .mtch ∨ ∃ y ∈ succ fold p w x, Wins fold p w y := by
  constructor
  · rintro ⟨z, hz, hm⟩
    rcases ReflTransGen.cases_head hz with rfl | ⟨y, hy, hyz⟩
    · exact .inl hm
    · exact .inr ⟨y, hy, z, hyz, hm⟩
  · rintro (h | ⟨y, hy, z, hyz, hm⟩)
    · exact ⟨x, .refl, h⟩
    · exact ⟨z, .head hy hyz, hm⟩

theorem no_wins {S : Nat × Nat → Prop} (hS : ∀ x, S x → p[x.1]? ≠ some .mtch ∧ ∀ y ∈ succ fold p w x, S y) {x : Nat × Nat} (hx : S x) : ¬ Wins fold p w x := by
  rintro ⟨y, hr, hm⟩
  have : S y := by
    clear hm
    induction hr with
    | refl => exact hx
    | tail _ h ih => exact (hS _ ih).2 _ h
  exact (hS y this).1 hm

/-! ## Anchors -/

theorem anchored_wins : ∀ (f pc i : Nat), anchored p f pc = true → Wins fold p w (pc, i) → i = 0 ∨ w.length < i
  | 0, _, _, h, _ => by simp [anchored] at h
  | f + 1, pc, i, h, hw => by
    rw [wins_step] at hw
    have pass : ∀ o j, anchored p f o = true → Wins fold p w (o, j) → j = 0 ∨ w.length < j := fun o j => anchored_wins f o j
    unfold anchored at h
    unfold succ at hw
    split at h
    · rename_i o e
      rw [e] at hw
      simp only [reduceCtorEq, false_or] at hw
      rcases hw with hw | ⟨y, hy, hw⟩
      · cases hw
      · split at hy
        · rename_i hp
          simp [placeOk, before] at hp
          by_cases h0 : i = 0
          · exact .inl h0
          · have := hp h0
            exact .inr (by omega)
        · simp at hy
    · rename_i q o _ e
      rw [e] at hw
      rcases hw with hw | ⟨y, hy, hw⟩
      · cases hw
      · dsimp only at hy
        split at hy
        · simp at hy; subst hy; exact pass _ _ h hw
        · simp at hy
    · rename_i o e
      rw [e] at hw
      rcases hw with hw | ⟨y, hy, hw⟩
      · cases hw
      · simp at hy; subst hy; exact pass _ _ h hw
    · rename_i n o e
      rw [e] at hw
      rcases hw with hw | ⟨y, hy, hw⟩
      · cases hw
      · simp at hy; subst hy; exact pass _ _ h hw
    · cases h

/-! ## The backtracker -/

/-- Visited, or not worth a visit. -/
def Cov (S : List (Nat × Nat)) (x : Nat × Nat) : Prop := x ∈ S ∨ p[x.1]? = some .fail

/-- Nothing more to do for `x`. -/
def Done (S : List (Nat × Nat)) (x : Nat × Nat) : Prop := p[x.1]? ≠ some .mtch ∧ ∀ y ∈ succ fold p w x, Cov p S y

/-- The first half of an InstAlt is done. -/
def Half (S : List (Nat × Nat)) (x : Nat × Nat) : Prop := ∃ o a, p[x.1]? = some (.alt o a) ∧ Cov p S (o, x.2)

structure BInv (G : Nat × Nat → Prop) (b : Bits) : Prop where
  nodup : b.seen.Nodup
  range : ∀ x ∈ b.seen, x.1 < p.length ∧ x.2 ≤ w.length
  jobs : ∀ j ∈ b.jobs, (j.1, j.2.1) ∈ b.seen
  half : ∀ j ∈ b.jobs, j.2.2 = true → Half p b.seen (j.1, j.2.1)
  done : ∀ x ∈ b.seen, Done fold p w b.seen x ∨ ∃ a, (x.1, x.2, a) ∈ b.jobs
  goal : ∀ x ∈ b.seen, G x

def jobsCost : List (Nat × Nat × Bool) → Nat
  | [] => 0
  | (_, _, a) :: l => (if a then 1 else 2) + jobsCost l

def cost (b : Bits) : Nat := 2 * (p.length * (w.length + 1) - b.seen.length) + jobsCost b.jobs

theorem seen_le {S : List (Nat × Nat)} (hn : S.Nodup) (hr : ∀ x ∈ S, x.1 < p.length ∧ x.2 ≤ w.length) : S.length ≤ p.length * (w.length + 1) := by
  have inj : (S.map fun x => x.1 * (w.length + 1) + x.2).Nodup := by
    refine List.Nodup.map_on ?_ hn
    intro x hx y hy e
    have h1 := (hr x hx).2
    have h2 := (hr y hy).2
    have a : x.1 = y.1 := by
      have e1 : (x.1 * (w.length + 1) + x.2) / (w.length + 1) = x.1 := by
        rw [Nat.mul_comm, Nat.mul_add_div (by omega), Nat.div_eq_of_lt (by omega), Nat.add_zero]
      have e2 : (y.1 * (w.length + 1) + y.2) / (w.length + 1) = y.1 := by
        rw [Nat.mul_comm, Nat.mul_add_div (by omega), Nat.div_eq_of_lt (by omega), Nat.add_zero]
      rw [← e1, ← e2, e]
    rw [a] at e
    exact Prod.ext a (by omega)
  have sub : (S.map fun x => x.1 * (w.length + 1) + x.2) ⊆ List.range (p.length * (w.length + 1)) := by
    intro n hn
    obtain ⟨x, hx, rfl⟩ := List.mem_map.1 hn
    have h1 := hr x hx
    rw [List.mem_range]
    calc x.1 * (w.length + 1) + x.2 < x.1 * (w.length + 1) + (w.length + 1) := by omega
      _ = (x.1 + 1) * (w.length + 1) := by rw [Nat.add_mul, Nat.one_mul]
      _ ≤ p.length * (w.length + 1) := Nat.mul_le_mul_right _ h1.1
  simpa using (List.subperm_of_subset inj sub).length_le

theorem cov_mono {S T : List (Nat × Nat)} (h : S ⊆ T) {x : Nat × Nat} (hx : Cov p S x) : Cov p T x := hx.imp (fun y => h y) id

theorem done_mono {S T : List (Nat × Nat)} (h : S ⊆ T) {x : Nat × Nat} (hx : Done fold p w S x) : Done fold p w T x := ⟨hx.1, fun y hy => cov_mono p h (hx.2 y hy)⟩

/-- A push that keeps the rest of the invariant. `D`: what else is in order. -/
structure BPre (G : Nat × Nat → Prop) (b : Bits) (x y : Nat × Nat) : Prop where
  nodup : b.seen.Nodup
  range : ∀ x ∈ b.seen, x.1 < p.length ∧ x.2 ≤ w.length
  jobs : ∀ j ∈ b.jobs, (j.1, j.2.1) ∈ b.seen
  half : ∀ j ∈ b.jobs, j.2.2 = true → j.1 = x.1 ∧ j.2.1 = x.2 ∨ Half p b.seen (j.1, j.2.1)
  done : ∀ z ∈ b.seen, z = x ∨ Done fold p w b.seen z ∨ ∃ a, (z.1, z.2, a) ∈ b.jobs
  goal : ∀ x ∈ b.seen, G x
  yr : y.1 < p.length ∧ y.2 ≤ w.length
  yg : G y

theorem push_seen (b : Bits) (y : Nat × Nat) : b.seen ⊆ (b.push p y.1 y.2).seen ∧ Cov p (b.push p y.1 y.2).seen y ∧ (∀ j ∈ b.jobs, j ∈ (b.push p y.1 y.2).jobs) := by
  unfold Bits.push
  split
  · rename_i h
    exact ⟨List.Subset.refl _, h.symm.imp id id, fun j h => h⟩
  · exact ⟨List.subset_cons_self _ _, .inl List.mem_cons_self, fun j h => List.mem_cons_of_mem _ h⟩

theorem push_inv {G : Nat × Nat → Prop} {b : Bits} {x y : Nat × Nat} (h : BPre fold p w G b x y)
    (hd : ∀ S, b.seen ⊆ S → Cov p S y → Done fold p w S x ∨ ∃ a, (x.1, x.2, a) ∈ b.jobs)
    (hh : ∀ S, b.seen ⊆ S → Cov p S y → ∀ j ∈ b.jobs, j.1 = x.1 → j.2.1 = x.2 → j.2.2 = true → Half p S x) : BInv fold p w G (b.push p y.1 y.2) := by
  obtain ⟨s1, s2, s3⟩ := push_seen p b y
  have half' : ∀ j ∈ b.jobs, j.2.2 = true → Half p (b.push p y.1 y.2).seen (j.1, j.2.1) := by
    intro j hj ht
    rcases h.half j hj ht with ⟨e1, e2⟩ | ⟨o, a, e, hc⟩
    · rw [e1, e2]
      exact hh _ s1 s2 j hj e1 e2 ht
    · exact ⟨o, a, e, cov_mono p s1 hc⟩
  have done' : ∀ z ∈ b.seen, Done fold p w (b.push p y.1 y.2).seen z ∨ ∃ a, (z.1, z.2, a) ∈ (b.push p y.1 y.2).jobs := by
    intro z hz
    rcases h.done z hz with rfl | hz | ⟨a, ha⟩
    · rcases hd _ s1 s2 with hd | ⟨a, ha⟩
      · exact .inl hd
      · exact .inr ⟨a, s3 _ ha⟩
    · exact .inl (done_mono fold p w s1 hz)
    · exact .inr ⟨a, s3 _ ha⟩
  unfold Bits.push at half' done' ⊢
  split
  · rename_i hc
    rw [if_pos hc] at half' done'
    exact ⟨h.nodup, h.range, h.jobs, half', done', h.goal⟩
  · rename_i hc
    rw [if_neg hc] at half' done'
    push Not at hc
    refine ⟨List.nodup_cons.2 ⟨hc.2, h.nodup⟩, ?_, ?_, ?_, ?_, ?_⟩
    · intro z hz
      rcases List.mem_cons.1 hz with rfl | hz
      · exact h.yr
      · exact h.range z hz
    · intro j hj
      rcases List.mem_cons.1 hj with rfl | hj
      · exact List.mem_cons_self
      · exact List.mem_cons_of_mem _ (h.jobs j hj)
    · intro j hj ht
      rcases List.mem_cons.1 hj with rfl | hj
      · cases ht
      · exact half' j hj ht
    · intro z hz
      rcases List.mem_cons.1 hz with rfl | hz
      · exact .inr ⟨false, List.mem_cons_self⟩
      · exact done' z hz
    · intro z hz
      rcases List.mem_cons.1 hz with rfl | hz
      · exact h.yg
      · exact h.goal z hz

theorem push_cost {G : Nat × Nat → Prop} {b : Bits} {y : Nat × Nat} (h : BInv fold p w G (b.push p y.1 y.2)) : cost p w (b.push p y.1 y.2) ≤ cost p w b := by
  have hl := seen_le p w h.nodup h.range
  unfold Bits.push at hl ⊢
  split
  · exact Nat.le_refl _
  · rename_i hc
    rw [if_neg hc] at hl
    simp only [cost, jobsCost, List.length_cons] at hl ⊢
    simp
    omega

theorem step_inv {G : Nat × Nat → Prop} (hc : Closed p) (hG : ∀ x y, G x → y ∈ succ fold p w x → G y) {S : List (Nat × Nat)} {pc i : Nat} {arg : Bool} {J : List (Nat × Nat × Bool)}
    (h : BInv fold p w G ⟨S, (pc, i, arg) :: J⟩) :
    match bitStep fold p w S pc i arg J with
    | none => p[pc]? = some .mtch
    | some b => BInv fold p w G b ∧ S ⊆ b.seen ∧ cost p w b + 1 ≤ cost p w ⟨S, (pc, i, arg) :: J⟩ := by
  have hx : (pc, i) ∈ S := h.jobs _ List.mem_cons_self
  have hr := h.range _ hx
  have hg := h.goal _ hx
  have base : ∀ z ∈ S, z = (pc, i) ∨ Done fold p w S z ∨ ∃ a, (z.1, z.2, a) ∈ J := by
    intro z hz
    rcases h.done z hz with hz | ⟨a, ha⟩
    · exact .inr (.inl hz)
    · rcases List.mem_cons.1 ha with e | ha
      · simp only [Prod.mk.injEq] at e
        exact .inl (Prod.ext e.1 e.2.1)
      · exact .inr (.inr ⟨a, ha⟩)
  have pre : ∀ y, y ∈ succ fold p w (pc, i) → BPre fold p w G ⟨S, J⟩ (pc, i) y := fun y hy =>
    ⟨h.nodup, h.range, fun j hj => h.jobs j (List.mem_cons_of_mem _ hj), fun j hj ht => .inr (h.half j (List.mem_cons_of_mem _ hj) ht), base, h.goal, succ_lt hc hy hr.2, hG _ _ hg hy⟩
  have halfJ : ∀ T, S ⊆ T → ∀ j ∈ J, j.1 = pc → j.2.1 = i → j.2.2 = true → Half p T (pc, i) := by
    intro T hT j hj e1 e2 ht
    obtain ⟨o, a, e, hc⟩ := h.half j (List.mem_cons_of_mem _ hj) ht
    rw [e1] at e
    rw [e2] at hc
    exact ⟨o, a, e, cov_mono p hT hc⟩
  have c1 : cost p w ⟨S, J⟩ + 1 ≤ cost p w ⟨S, (pc, i, arg) :: J⟩ := by
    simp only [cost, jobsCost]
    split <;> omega
  have single : ∀ y, succ fold p w (pc, i) = [y] → p[pc]? ≠ some .mtch → BInv fold p w G (Bits.push ⟨S, J⟩ p y.1 y.2) ∧ S ⊆ (Bits.push ⟨S, J⟩ p y.1 y.2).seen ∧
      cost p w (Bits.push ⟨S, J⟩ p y.1 y.2) + 1 ≤ cost p w ⟨S, (pc, i, arg) :: J⟩ := by
    intro y hy hm
    have inv : BInv fold p w G (Bits.push ⟨S, J⟩ p y.1 y.2) := by
      refine push_inv fold p w (pre y (by rw [hy]; simp)) ?_ (fun T hT _ j hj e1 e2 ht => halfJ T hT j hj e1 e2 ht)
      intro T hT hcov
      refine .inl ⟨hm, ?_⟩
      rw [hy]
      simpa using hcov
    exact ⟨inv, (push_seen p ⟨S, J⟩ y).1, Nat.le_trans (Nat.succ_le_succ (push_cost fold p w inv)) c1⟩
  have dead : succ fold p w (pc, i) = [] → p[pc]? ≠ some .mtch → BInv fold p w G ⟨S, J⟩ ∧ S ⊆ S ∧ cost p w ⟨S, J⟩ + 1 ≤ cost p w ⟨S, (pc, i, arg) :: J⟩ := by
    intro hy hm
    refine ⟨⟨h.nodup, h.range, fun j hj => h.jobs j (List.mem_cons_of_mem _ hj), fun j hj => h.half j (List.mem_cons_of_mem _ hj), ?_, h.goal⟩, List.Subset.refl _, c1⟩
    intro z hz
    rcases base z hz with rfl | hz
    · refine .inl ⟨hm, ?_⟩
      rw [hy]; simp
    · exact hz
  unfold bitStep
  cases e : p[pc]? with
  | none =>
    exact dead (by simp [succ, e]) (by rw [e]; nofun)
  | some x =>
    cases x with
    | fail => exact dead (by simp [succ, e]) (by rw [e]; nofun)
    | mtch => rfl
    | nop o => exact single (o, i) (by simp [succ, e]) (by rw [e]; nofun)
    | cap n o => exact single (o, i) (by simp [succ, e]) (by rw [e]; nofun)
    | place q o =>
      dsimp only
      split
      · rename_i hq
        exact single (o, i) (by simp [succ, e, hq]) (by rw [e]; nofun)
      · rename_i hq
        exact dead (by simp [succ, e, hq]) (by rw [e]; nofun)
    | rune t o =>
      dsimp only
      split
      · rename_i hq
        exact single (o, i + 1) (by simp only [succ, e]; rw [if_pos hq]) (by rw [e]; nofun)
      · rename_i hq
        exact dead (by simp only [succ, e]; rw [if_neg hq]) (by rw [e]; nofun)
    | alt o a =>
      have hs : succ fold p w (pc, i) = [(o, i), (a, i)] := by simp [succ, e]
      cases arg with
      | true =>
        simp only [if_true]
        have hh := h.half _ List.mem_cons_self rfl
        have inv : BInv fold p w G (Bits.push ⟨S, J⟩ p a i) := by
          refine push_inv fold p w (y := (a, i)) (pre (a, i) (by rw [hs]; simp)) ?_ (fun T hT _ j hj e1 e2 ht => halfJ T hT j hj e1 e2 ht)
          intro T hT hcov
          refine .inl ⟨by simp [e], ?_⟩
          rw [hs]
          obtain ⟨o', a', e', hco⟩ := hh
          simp only [e, Option.some.injEq, Inst.alt.injEq] at e'
          obtain ⟨rfl, rfl⟩ := e'
          intro y hy
          simp only [List.mem_cons, List.not_mem_nil, or_false] at hy
          rcases hy with rfl | rfl
          · exact cov_mono p hT hco
          · exact hcov
        exact ⟨inv, (push_seen p ⟨S, J⟩ (a, i)).1, Nat.le_trans (Nat.succ_le_succ (push_cost fold p w (y := (a, i)) inv)) c1⟩
      | false =>
        simp only [Bool.false_eq_true, if_false]
        have inv : BInv fold p w G (Bits.push ⟨S, (pc, i, true) :: J⟩ p o i) := by
          refine push_inv fold p w (x := (pc, i)) (y := (o, i)) ⟨h.nodup, h.range, ?_, ?_, ?_, h.goal, succ_lt hc (by rw [hs]; simp) hr.2, hG _ _ hg (by rw [hs]; simp)⟩ ?_ ?_
          · intro j hj
            rcases List.mem_cons.1 hj with rfl | hj
            · exact hx
            · exact h.jobs j (List.mem_cons_of_mem _ hj)
          · intro j hj ht
            rcases List.mem_cons.1 hj with rfl | hj
            · exact .inl ⟨rfl, rfl⟩
            · exact .inr (h.half j (List.mem_cons_of_mem _ hj) ht)
          · intro z hz
            rcases base z hz with rfl | hz | ⟨a', ha⟩
            · exact .inl rfl
            · exact .inr (.inl hz)
            · exact .inr (.inr ⟨a', List.mem_cons_of_mem _ ha⟩)
          · intro T _ _
            exact .inr ⟨true, List.mem_cons_self⟩
          · intro T hT hcov j _ _ _ _
            exact ⟨o, a, e, hcov⟩
        refine ⟨inv, (push_seen p ⟨S, (pc, i, true) :: J⟩ (o, i)).1, Nat.le_trans (Nat.succ_le_succ (push_cost fold p w (y := (o, i)) inv)) ?_⟩
        simp [cost, jobsCost]
        omega

theorem tryBits_ok {G : Nat × Nat → Prop} (hc : Closed p) (hG : ∀ x y, G x → y ∈ succ fold p w x → G y) : ∀ (f : Nat) (b : Bits), BInv fold p w G b → cost p w b ≤ f →
    match tryBits fold p w f b with
    | (none, k) => (∃ x, G x ∧ p[x.1]? = some .mtch) ∧ k ≤ cost p w b
    | (some S, k) => BInv fold p w G ⟨S, []⟩ ∧ b.seen ⊆ S ∧ k + 2 * (p.length * (w.length + 1) - S.length) ≤ cost p w b
  | f, ⟨S, []⟩, h, _ => by
    have : tryBits fold p w f ⟨S, []⟩ = (some S, 0) := by cases f <;> rfl
    rw [this]
    exact ⟨h, List.Subset.refl _, by simp [cost, jobsCost]⟩
  | 0, ⟨S, (pc, i, a) :: J⟩, h, hf => by
    simp only [cost, jobsCost] at hf
    split at hf <;> omega
  | f + 1, ⟨S, (pc, i, a) :: J⟩, h, hf => by
    have hs := step_inv fold p w hc hG h
    simp only [tryBits]
    cases e : bitStep fold p w S pc i a J with
    | none =>
      rw [e] at hs
      refine ⟨⟨(pc, i), h.goal _ (h.jobs _ List.mem_cons_self), hs⟩, ?_⟩
      simp only [cost, jobsCost]
      split <;> omega
    | some b =>
      rw [e] at hs
      obtain ⟨h1, h2, h3⟩ := hs
      have ih := tryBits_ok hc hG f b h1 (by omega)
      revert ih
      dsimp only
      cases e2 : tryBits fold p w f b with
      | mk r k =>
        cases r with
        | none => exact fun ih => ⟨ih.1, by have := ih.2; simp only; omega⟩
        | some T => exact fun ih => ⟨ih.1, List.Subset.trans h2 ih.2.1, by have := ih.2.2; simp only; omega⟩

/-- Reached from the start at some position. -/
def From (start : Nat) (x : Nat × Nat) : Prop := ∃ i, i ≤ w.length ∧ Reach fold p w (start, i) x

theorem bitSearch_ok (hc : Closed p) (start : Nat) (hs : start < p.length) : ∀ (n i : Nat) (S : List (Nat × Nat)), BInv fold p w (From fold p w start) ⟨S, []⟩ → i + n ≤ w.length + 1 →
    (bitSearch fold p start w n i S).2 ≤ 2 * (p.length * (w.length + 1) - S.length) ∧
    if (bitSearch fold p start w n i S).1 then ∃ k ≤ w.length, Wins fold p w (start, k)
    else ∃ T, BInv fold p w (From fold p w start) ⟨T, []⟩ ∧ S ⊆ T ∧ ∀ k, i ≤ k → k < i + n → Cov p T (start, k)
  | 0, i, S, h, _ => by
    simp only [bitSearch]
    exact ⟨Nat.zero_le _, by simp only [Bool.false_eq_true, if_false]; exact ⟨S, h, List.Subset.refl _, fun k h1 h2 => by omega⟩⟩
  | n + 1, i, S, h, hi => by
    have hG : ∀ x y, From fold p w start x → y ∈ succ fold p w x → From fold p w start y := fun x y ⟨k, hk, hr⟩ hy => ⟨k, hk, hr.tail hy⟩
    have inv : BInv fold p w (From fold p w start) (Bits.push ⟨S, []⟩ p start i) := by
      unfold Bits.push
      split
      · exact h
      · rename_i hn
        push Not at hn
        refine ⟨List.nodup_cons.2 ⟨hn.2, h.nodup⟩, ?_, ?_, ?_, ?_, ?_⟩
        · intro z hz
          rcases List.mem_cons.1 hz with rfl | hz
          · exact ⟨hs, by simp only; omega⟩
          · exact h.range z hz
        · intro j hj
          simp only [List.mem_cons, List.not_mem_nil, or_false] at hj
          subst hj
          exact List.mem_cons_self
        · intro j hj ht
          simp only [List.mem_cons, List.not_mem_nil, or_false] at hj
          subst hj
          cases ht
        · intro z hz
          rcases List.mem_cons.1 hz with rfl | hz
          · exact .inr ⟨false, List.mem_cons_self⟩
          · rcases h.done z hz with hz | ⟨a, ha⟩
            · exact .inl (done_mono fold p w (List.subset_cons_self _ _) hz)
            · cases ha
        · intro z hz
          rcases List.mem_cons.1 hz with rfl | hz
          · exact ⟨i, by omega, .refl⟩
          · exact h.goal z hz
    have hcost : cost p w (Bits.push ⟨S, []⟩ p start i) ≤ cost p w ⟨S, []⟩ := push_cost fold p w (y := (start, i)) inv
    have hcs : cost p w ⟨S, []⟩ = 2 * (p.length * (w.length + 1) - S.length) := by simp [cost, jobsCost]
    obtain ⟨s1, s2, -⟩ := push_seen p ⟨S, []⟩ (start, i)
    have hfuel : cost p w (Bits.push ⟨S, []⟩ p start i) ≤ bitFuel p w := by
      refine Nat.le_trans hcost ?_
      rw [hcs]
      unfold bitFuel
      rw [Nat.mul_assoc]
      exact Nat.mul_le_mul_left _ (Nat.sub_le _ _)
    have ht := tryBits_ok fold p w hc hG _ _ inv hfuel
    cases e : tryBits fold p w (bitFuel p w) (Bits.push ⟨S, []⟩ p start i) with
    | mk r k =>
      rw [e] at ht
      simp only [bitSearch, e]
      revert ht
      cases r with
      | none =>
        rintro ⟨⟨x, ⟨k', hk', hr⟩, hm⟩, hle⟩
        simp only [if_true]
        exact ⟨by omega, k', hk', x, hr, hm⟩
      | some T =>
        rintro ⟨h1, h2, h3⟩
        have ih := bitSearch_ok hc start hs n (i + 1) T h1 (by omega)
        dsimp only
        refine ⟨by have := ih.1; omega, ?_⟩
        have ih := ih.2
        split
        · rename_i hb
          rw [if_pos hb] at ih
          exact ih
        · rename_i hb
          rw [if_neg hb] at ih
          obtain ⟨U, hU, hT, hk⟩ := ih
          refine ⟨U, hU, List.Subset.trans s1 (List.Subset.trans h2 hT), ?_⟩
          intro k h4 h5
          by_cases hki : k = i
          · subst hki
            exact cov_mono p (List.Subset.trans h2 hT) s2
          · exact hk k (by omega) (by omega)

theorem cov_no_wins {G : Nat × Nat → Prop} {T : List (Nat × Nat)} (h : BInv fold p w G ⟨T, []⟩) {x : Nat × Nat} (hx : Cov p T x) : ¬ Wins fold p w x := by
  refine no_wins fold p w (S := Cov p T) ?_ hx
  rintro y (hy | hy)
  · rcases h.done y hy with hd | ⟨a, ha⟩
    · exact hd
    · cases ha
  · refine ⟨by rw [hy]; nofun, ?_⟩
    simp [succ, hy]

theorem backtrack_ok (hc : Closed p) (start : Nat) (hs : start < p.length) :
    ((backtrack fold p start w).1 = true ↔ ∃ k ≤ w.length, Wins fold p w (start, k)) ∧ (backtrack fold p start w).2 ≤ 2 * p.length * (w.length + 1) := by
  have h0 : BInv fold p w (From fold p w start) ⟨[], []⟩ := ⟨List.nodup_nil, nofun, nofun, nofun, nofun, nofun⟩
  unfold backtrack
  by_cases ha : anchored p p.length start = true
  · rw [if_pos ha]
    obtain ⟨h1, h2⟩ := bitSearch_ok fold p w hc start hs 1 0 [] h0 (by omega)
    refine ⟨?_, by rw [Nat.mul_assoc]; simpa using h1⟩
    constructor
    · intro hb
      rwa [if_pos hb] at h2
    · rintro ⟨k, hk, hw⟩
      by_contra hb
      rw [if_neg hb] at h2
      obtain ⟨T, hT, -, hcov⟩ := h2
      have := anchored_wins fold p w _ _ _ ha hw
      have hk0 : k = 0 := by omega
      subst hk0
      exact cov_no_wins fold p w hT (hcov 0 (by omega) (by omega)) hw
  · rw [if_neg ha]
    obtain ⟨h1, h2⟩ := bitSearch_ok fold p w hc start hs (w.length + 1) 0 [] h0 (by omega)
    refine ⟨?_, by rw [Nat.mul_assoc]; simpa using h1⟩
    constructor
    · intro hb
      rwa [if_pos hb] at h2
    · rintro ⟨k, hk, hw⟩
      by_contra hb
      rw [if_neg hb] at h2
      obtain ⟨T, hT, -, hcov⟩ := h2
      exact cov_no_wins fold p w hT (hcov k (by omega) (by omega)) hw

/-! ## The machine with threads -/

/-- Where an instruction leads without a rune. -/
def eps (i pc : Nat) : List Nat :=
  match p[pc]? with
  | some (.alt o a) => [o, a]
  | some (.place x o) => if placeOk w i x then [o] else []
  | some (.nop o) => [o]
  | some (.cap _ o) => [o]
  | _ => []

theorem succ_eps (pc i : Nat) (y : Nat × Nat) : y ∈ succ fold p w (pc, i) ↔
    (y.2 = i ∧ y.1 ∈ eps p w i pc) ∨ ∃ t o, p[pc]? = some (.rune t o) ∧ (w[i]?.any fun r => t.ok fold r) = true ∧ y = (o, i + 1) := by
  unfold succ eps
  dsimp only
  cases e : p[pc]? with
  | none => simp
  | some x =>
    obtain ⟨y1, y2⟩ := y
    cases x <;> simp
    · constructor
      · rintro (⟨rfl, rfl⟩ | ⟨rfl, rfl⟩) <;> simp
      · rintro ⟨rfl, rfl | rfl⟩ <;> simp
    · exact ⟨fun ⟨a, b, c⟩ => ⟨c, a, b⟩, fun ⟨c, a, b⟩ => ⟨a, b, c⟩⟩
    · exact and_comm
    · exact and_comm

theorem add_eq (i f : Nat) (q : List Nat) (pc : Nat) (todo : List Nat) : add p w i (f + 1) q (pc :: todo) =
    if pc = 0 ∨ pc ∈ q then ((add p w i f q todo).1, (add p w i f q todo).2 + 1)
    else ((add p w i f (pc :: q) (eps p w i pc ++ todo)).1, (add p w i f (pc :: q) (eps p w i pc ++ todo)).2 + 1) := rfl

/-- A queue: no doubles, instructions of the program other than the first, all reachable. -/
structure Queue (G : Nat → Prop) (q : List Nat) : Prop where
  nodup : q.Nodup
  range : ∀ pc ∈ q, pc ≠ 0 ∧ pc < p.length
  goal : ∀ pc ∈ q, G pc

theorem queue_le {G : Nat → Prop} {q : List Nat} (h : Queue p G q) : q.length + 1 ≤ p.length ∨ q = [] := by
  by_cases hq : q = []
  · exact .inr hq
  · refine .inl ?_
    have sub : 0 :: q ⊆ List.range p.length := by
      intro n hn
      rw [List.mem_range]
      rcases List.mem_cons.1 hn with rfl | hn
      · obtain ⟨x, hx⟩ := List.exists_mem_of_ne_nil q hq
        have := h.range x hx
        omega
      · exact (h.range n hn).2
    have nd : (0 :: q).Nodup := List.nodup_cons.2 ⟨fun h0 => (h.range 0 h0).1 rfl, h.nodup⟩
    simpa using (List.Nodup.subperm nd sub).length_le

theorem queue_le' {G : Nat → Prop} {q : List Nat} (h : Queue p G q) : q.length ≤ p.length := by
  rcases queue_le p h with h | h
  · omega
  · simp [h]

theorem eps_lt (hc : Closed p) {i pc o : Nat} (h : o ∈ eps p w i pc) : o < p.length ∧ (eps p w i pc).length ≤ 2 := by
  unfold eps at h ⊢
  cases e : p[pc]? with
  | none => rw [e] at h; cases h
  | some x =>
    rw [e] at h
    have := hc _ _ e
    cases x <;> simp [Inst.targets] at this h ⊢
    · rcases h with rfl | rfl
      · exact this.1
      · exact this.2
    · obtain ⟨_, rfl⟩ := h
      refine ⟨this, ?_⟩
      split <;> simp
    · subst h; exact this
    · subst h; exact this

theorem eps_len (i pc : Nat) : (eps p w i pc).length ≤ 2 := by
  unfold eps
  split <;> (try split) <;> simp

theorem add_ok (hc : Closed p) {G : Nat → Prop} (i : Nat) (hG : ∀ pc o, G pc → o ∈ eps p w i pc → G o) : ∀ (f : Nat) (q todo : List Nat), Queue p G q →
    (∀ o ∈ todo, o < p.length ∧ (o ≠ 0 → G o)) → 2 * (p.length - q.length) + todo.length ≤ f →
    Queue p G (add p w i f q todo).1 ∧ q ⊆ (add p w i f q todo).1 ∧ (∀ o ∈ todo, o = 0 ∨ o ∈ (add p w i f q todo).1) ∧
    ((∀ pc ∈ q, ∀ o ∈ eps p w i pc, o = 0 ∨ o ∈ q ∨ o ∈ todo) → ∀ pc ∈ (add p w i f q todo).1, ∀ o ∈ eps p w i pc, o = 0 ∨ o ∈ (add p w i f q todo).1) ∧
    (add p w i f q todo).2 + 2 * q.length ≤ 2 * (add p w i f q todo).1.length + todo.length
  | f, q, [], hq, _, _ => by
    have : add p w i f q [] = (q, 0) := by cases f <;> rfl
    rw [this]
    refine ⟨hq, List.Subset.refl _, nofun, ?_, by simp⟩
    intro h pc hpc o ho
    rcases h pc hpc o ho with h | h | h
    · exact .inl h
    · exact .inr h
    · cases h
  | 0, q, pc :: todo, _, _, hf => by simp at hf
  | f + 1, q, pc :: todo, hq, ht, hf => by
    rw [add_eq]
    have ht' : ∀ o ∈ todo, o < p.length ∧ (o ≠ 0 → G o) := fun o ho => ht o (List.mem_cons_of_mem _ ho)
    by_cases hc0 : pc = 0 ∨ pc ∈ q
    · rw [if_pos hc0]
      obtain ⟨h1, h2, h3, h4, h5⟩ := add_ok hc i hG f q todo hq ht' (by simp at hf; omega)
      refine ⟨h1, h2, ?_, ?_, by simp only [List.length_cons]; omega⟩
      · intro o ho
        rcases List.mem_cons.1 ho with rfl | ho
        · exact hc0.imp id (fun h => h2 h)
        · exact h3 o ho
      · intro h
        refine h4 fun a ha o ho => ?_
        rcases h a ha o ho with h | h | h
        · exact .inl h
        · exact .inr (.inl h)
        · rcases List.mem_cons.1 h with rfl | h
          · rcases hc0 with h0 | h0
            · exact .inl h0
            · exact .inr (.inl h0)
          · exact .inr (.inr h)
    · rw [if_neg hc0]
      push Not at hc0
      have hpc := ht pc List.mem_cons_self
      have hgpc := hpc.2 hc0.1
      have hq' : Queue p G (pc :: q) := by
        refine ⟨List.nodup_cons.2 ⟨hc0.2, hq.nodup⟩, ?_, ?_⟩
        · intro o ho
          rcases List.mem_cons.1 ho with rfl | ho
          · exact ⟨hc0.1, hpc.1⟩
          · exact hq.range o ho
        · intro o ho
          rcases List.mem_cons.1 ho with rfl | ho
          · exact hgpc
          · exact hq.goal o ho
      have hl := queue_le' p hq'
      have he := eps_len p w i pc
      have ht2 : ∀ o ∈ eps p w i pc ++ todo, o < p.length ∧ (o ≠ 0 → G o) := by
        intro o ho
        rcases List.mem_append.1 ho with ho | ho
        · exact ⟨(eps_lt p w hc ho).1, fun _ => hG _ _ hgpc ho⟩
        · exact ht' o ho
      obtain ⟨h1, h2, h3, h4, h5⟩ := add_ok hc i hG f (pc :: q) (eps p w i pc ++ todo) hq' ht2 (by
        simp only [List.length_cons, List.length_append] at hf hl ⊢; omega)
      refine ⟨h1, fun x hx => h2 (List.mem_cons_of_mem _ hx), ?_, ?_, ?_⟩
      · intro o ho
        rcases List.mem_cons.1 ho with rfl | ho
        · exact .inr (h2 List.mem_cons_self)
        · exact h3 o (List.mem_append_right _ ho)
      · intro h
        refine h4 fun a ha o ho => ?_
        rcases List.mem_cons.1 ha with rfl | ha
        · exact .inr (.inr (List.mem_append_left _ ho))
        · rcases h a ha o ho with h | h | h
          · exact .inl h
          · exact .inr (.inl (List.mem_cons_of_mem _ h))
          · rcases List.mem_cons.1 h with rfl | h
            · exact .inr (.inl List.mem_cons_self)
            · exact .inr (.inr (List.mem_append_right _ h))
      · simp only [List.length_cons, List.length_append] at h5 ⊢
        omega

/-- What `add` from an empty list of calls does, with the fuel it is given. -/
theorem add_one (hc : Closed p) {G : Nat → Prop} (i : Nat) (hG : ∀ pc o, G pc → o ∈ eps p w i pc → G o) {q : List Nat} (hq : Queue p G q) {o : Nat} (ho : o < p.length) (hgo : o ≠ 0 → G o)
    (hcl : ∀ pc ∈ q, ∀ o ∈ eps p w i pc, o = 0 ∨ o ∈ q) :
    Queue p G (add p w i (addFuel p) q [o]).1 ∧ q ⊆ (add p w i (addFuel p) q [o]).1 ∧ (o = 0 ∨ o ∈ (add p w i (addFuel p) q [o]).1) ∧
    (∀ pc ∈ (add p w i (addFuel p) q [o]).1, ∀ x ∈ eps p w i pc, x = 0 ∨ x ∈ (add p w i (addFuel p) q [o]).1) ∧
    (add p w i (addFuel p) q [o]).2 + 2 * q.length ≤ 2 * (add p w i (addFuel p) q [o]).1.length + 1 := by
  obtain ⟨h1, h2, h3, h4, h5⟩ := add_ok p w hc i hG (addFuel p) q [o] hq (by simpa using ⟨ho, hgo⟩) (by simp [addFuel]; omega)
  exact ⟨h1, h2, h3 o (by simp), h4 fun pc hpc x hx => (hcl pc hpc x hx).imp id .inl, by simpa using h5⟩

/-- What `step` has done with the threads `run`. -/
def StepOk (G' : Nat → Prop) (i : Nat) (run next : List Nat) (x : List Nat × Bool × Nat) : Prop :=
  (x.2.1 = true → ∃ pc ∈ run, p[pc]? = some .mtch) ∧
  (x.2.1 = false → (∀ pc ∈ run, p[pc]? ≠ some .mtch) ∧ Queue p G' x.1 ∧ next ⊆ x.1 ∧ (∀ pc ∈ x.1, ∀ o ∈ eps p w (i + 1) pc, o = 0 ∨ o ∈ x.1) ∧
    ∀ pc ∈ run, ∀ t o, p[pc]? = some (.rune t o) → (w[i]?.any fun r => t.ok fold r) = true → o = 0 ∨ o ∈ x.1) ∧
  x.2.2 + 2 * next.length ≤ 2 * run.length + 2 * x.1.length ∧ x.1.length ≤ p.length

theorem stepAll_ok (hc : Closed p) {G G' : Nat → Prop} (i : Nat) (hG : ∀ pc o, G' pc → o ∈ eps p w (i + 1) pc → G' o)
    (hr : ∀ pc t o, G pc → p[pc]? = some (.rune t o) → (w[i]?.any fun r => t.ok fold r) = true → G' o) : ∀ (run next : List Nat), (∀ pc ∈ run, G pc) → Queue p G' next →
    (∀ pc ∈ next, ∀ o ∈ eps p w (i + 1) pc, o = 0 ∨ o ∈ next) → StepOk fold p w G' i run next (stepAll fold p w i run next)
  | [], next, _, hq, hcl => by
    simp only [stepAll]
    exact ⟨nofun, fun _ => ⟨nofun, hq, List.Subset.refl _, hcl, nofun⟩, by simp, queue_le' p hq⟩
  | pc :: run, next, hg, hq, hcl => by
    have hg' : ∀ pc ∈ run, G pc := fun x hx => hg x (List.mem_cons_of_mem _ hx)
    have skip : (∀ t o, p[pc]? = some (.rune t o) → (w[i]?.any fun r => t.ok fold r) = true → False) → p[pc]? ≠ some .mtch →
        stepAll fold p w i (pc :: run) next = ((stepAll fold p w i run next).1, (stepAll fold p w i run next).2.1, (stepAll fold p w i run next).2.2 + 1) →
        StepOk fold p w G' i (pc :: run) next (stepAll fold p w i (pc :: run) next) := fun hn hm e => by
      obtain ⟨h1, h2, h3, h4⟩ := stepAll_ok hc i hG hr run next hg' hq hcl
      rw [e]
      refine ⟨?_, ?_, ?_, h4⟩
      · intro hb
        obtain ⟨x, hx, hm⟩ := h1 hb
        exact ⟨x, List.mem_cons_of_mem _ hx, hm⟩
      · intro hb
        obtain ⟨a1, a2, a3, a4, a5⟩ := h2 hb
        refine ⟨?_, a2, a3, a4, ?_⟩
        · intro x hx
          rcases List.mem_cons.1 hx with rfl | hx
          · exact hm
          · exact a1 x hx
        · intro x hx t o e' ho
          rcases List.mem_cons.1 hx with rfl | hx
          · exact (hn t o e' ho).elim
          · exact a5 x hx t o e' ho
      · simp only [List.length_cons]
        omega
    cases e : p[pc]? with
    | none => exact skip (by rw [e]; nofun) (by rw [e]; nofun) (by simp [stepAll, e])
    | some x =>
      cases x with
      | fail => exact skip (by rw [e]; nofun) (by rw [e]; nofun) (by simp [stepAll, e])
      | alt _ _ => exact skip (by rw [e]; nofun) (by rw [e]; nofun) (by simp [stepAll, e])
      | place _ _ => exact skip (by rw [e]; nofun) (by rw [e]; nofun) (by simp [stepAll, e])
      | nop _ => exact skip (by rw [e]; nofun) (by rw [e]; nofun) (by simp [stepAll, e])
      | cap _ _ => exact skip (by rw [e]; nofun) (by rw [e]; nofun) (by simp [stepAll, e])
      | mtch =>
        have : stepAll fold p w i (pc :: run) next = (next, true, 1) := by simp [stepAll, e]
        rw [this]
        refine ⟨fun _ => ⟨pc, List.mem_cons_self, e⟩, nofun, ?_, queue_le' p hq⟩
        simp only [List.length_cons]
        omega
      | rune t o =>
        by_cases ht : (w[i]?.any fun r => t.ok fold r) = true
        · have he : stepAll fold p w i (pc :: run) next = ((stepAll fold p w i run (add p w (i + 1) (addFuel p) next [o]).1).1,
              (stepAll fold p w i run (add p w (i + 1) (addFuel p) next [o]).1).2.1,
              (stepAll fold p w i run (add p w (i + 1) (addFuel p) next [o]).1).2.2 + (add p w (i + 1) (addFuel p) next [o]).2 + 1) := by
            simp only [stepAll, e]
            rw [if_pos ht]
          have hlt : o < p.length := hc _ _ e o (by simp [Inst.targets])
          obtain ⟨b1, b2, b3, b4, b5⟩ := add_one p w hc (i + 1) hG hq hlt (fun _ => hr pc t o (hg pc List.mem_cons_self) e ht) hcl
          obtain ⟨h1, h2, h3, h4⟩ := stepAll_ok hc i hG hr run _ hg' b1 b4
          rw [he]
          refine ⟨?_, ?_, ?_, h4⟩
          · intro hb
            obtain ⟨x, hx, hm⟩ := h1 hb
            exact ⟨x, List.mem_cons_of_mem _ hx, hm⟩
          · intro hb
            obtain ⟨a1, a2, a3, a4, a5⟩ := h2 hb
            refine ⟨?_, a2, List.Subset.trans b2 a3, a4, ?_⟩
            · intro x hx
              rcases List.mem_cons.1 hx with rfl | hx
              · rw [e]; nofun
              · exact a1 x hx
            · intro x hx t' o' e' ho
              rcases List.mem_cons.1 hx with rfl | hx
              · rw [e] at e'
                simp only [Option.some.injEq, Inst.rune.injEq] at e'
                obtain ⟨-, rfl⟩ := e'
                exact b3.imp id fun h => a3 h
              · exact a5 x hx t' o' e' ho
          · simp only [List.length_cons]
            omega
        · refine skip ?_ (by rw [e]; nofun) ?_
          · intro t' o' e' ho
            rw [e] at e'
            simp only [Option.some.injEq, Inst.rune.injEq] at e'
            obtain ⟨rfl, -⟩ := e'
            exact ht ho
          · simp only [stepAll, e]
            rw [if_neg ht]

/-- Reached from the start, now at position `i`. -/
def At (start i : Nat) (pc : Nat) : Prop := ∃ k, k ≤ w.length ∧ Reach fold p w (start, k) (pc, i)

theorem not_wins_zero (h0 : p[0]? = some .fail) (i : Nat) : ¬ Wins fold p w (0, i) := by
  rw [wins_step]
  simp [succ, h0]

theorem nfaSearch_ok (hc : Closed p) (h0 : p[0]? = some .fail) (start : Nat) (hs : start < p.length) : ∀ (n i : Nat) (run : List Nat), i + n = w.length + 1 → Queue p (At fold p w start i) run →
    (∀ pc ∈ run, ∀ o ∈ eps p w i pc, o = 0 ∨ o ∈ run) →
    (nfaSearch fold p start w n i run).2 ≤ n * (6 * p.length) ∧
    if (nfaSearch fold p start w n i run).1 then ∃ k ≤ w.length, Wins fold p w (start, k)
    else n = 0 ∨ (∀ pc ∈ run, ¬ Wins fold p w (pc, i)) ∧ ∀ k, i ≤ k → k ≤ w.length → ¬ Wins fold p w (start, k)
  | 0, i, run, _, _, _ => by simp [nfaSearch]
  | n + 1, i, run, hi, hq, hcl => by
    have hG : ∀ i pc o, At fold p w start i pc → o ∈ eps p w i pc → At fold p w start i o := by
      rintro i pc o ⟨k, hk, hr⟩ ho
      exact ⟨k, hk, hr.tail ((succ_eps fold p w pc i (o, i)).2 (.inl ⟨rfl, ho⟩))⟩
    have hlen : 1 ≤ p.length := by omega
    unfold nfaSearch
    split
    · rename_i hend
      refine ⟨Nat.zero_le _, ?_⟩
      simp only [Bool.false_eq_true, if_false]
      refine .inr ⟨by simp [hend.1], ?_⟩
      intro k h1 h2 hw
      have := anchored_wins fold p w _ _ _ hend.2.1 hw
      omega
    · obtain ⟨b1, b2, b3, b4, b5⟩ := add_one p w hc i (hG i) hq hs (fun _ => ⟨i, by omega, .refl⟩) hcl
      have hrun : ∀ pc ∈ (add p w i (addFuel p) run [start]).1.reverse, At fold p w start i pc := fun pc hpc => b1.goal pc (List.mem_reverse.1 hpc)
      obtain ⟨s1, s2, s3, s4⟩ := stepAll_ok fold p w hc (G := At fold p w start i) (G' := At fold p w start (i + 1)) i (hG (i + 1))
        (by
          rintro pc t o ⟨k, hk, hr⟩ e ho
          exact ⟨k, hk, hr.tail ((succ_eps fold p w pc i (o, i + 1)).2 (.inr ⟨t, o, e, ho, rfl⟩))⟩)
        _ [] hrun ⟨List.nodup_nil, nofun, nofun⟩ nofun
      have lq := queue_le' p b1
      have hcount : (add p w i (addFuel p) run [start]).2 + (stepAll fold p w i (add p w i (addFuel p) run [start]).1.reverse []).2.2 ≤ 6 * p.length := by
        simp only [List.length_reverse, List.length_nil] at s3
        rcases queue_le p b1 with h | h
        · omega
        · have : (add p w i (addFuel p) run [start]).1.length = 0 := by rw [h]; rfl
          omega
      dsimp only
      by_cases hb : (stepAll fold p w i (add p w i (addFuel p) run [start]).1.reverse []).2.1 = true
      · rw [if_pos hb]
        refine ⟨?_, ?_⟩
        · rw [Nat.add_mul, Nat.one_mul]
          simp only
          omega
        · simp only [if_true]
          obtain ⟨pc, hpc, hm⟩ := s1 hb
          obtain ⟨k, hk, hr⟩ := hrun pc hpc
          exact ⟨k, hk, _, hr, hm⟩
      · rw [if_neg hb]
        obtain ⟨a1, a2, a3, a4, a5⟩ := s2 (by simpa using hb)
        obtain ⟨i1, i2⟩ := nfaSearch_ok hc h0 start hs n (i + 1) _ (by omega) a2 a4
        refine ⟨?_, ?_⟩
        · rw [Nat.add_mul, Nat.one_mul]
          simp only
          omega
        · dsimp only
          split
          · rename_i hb2
            rwa [if_pos hb2] at i2
          · rename_i hb2
            rw [if_neg hb2] at i2
            refine .inr ?_
            have next : ∀ o, o = 0 ∨ o ∈ (stepAll fold p w i (add p w i (addFuel p) run [start]).1.reverse []).1 → i + 1 ≤ w.length → ¬ Wins fold p w (o, i + 1) := by
              intro o ho hle
              rcases i2 with h | h
              · omega
              · rcases ho with rfl | ho
                · exact not_wins_zero fold p w h0 _
                · exact h.1 o ho
            have q0 : ∀ pc ∈ (add p w i (addFuel p) run [start]).1, ¬ Wins fold p w (pc, i) := by
              intro pc hpc hw
              obtain ⟨⟨y1, y2⟩, hr, hm⟩ := hw
              suffices h : ∀ x y, Reach fold p w x y → x.2 = i → (x.1 = 0 ∨ x.1 ∈ (add p w i (addFuel p) run [start]).1) → p[y.1]? ≠ some .mtch from h _ _ hr rfl (.inr hpc) hm
              intro x y hr
              induction hr using ReflTransGen.head_induction_on with
              | refl =>
                intro _ hin
                rcases hin with h | h
                · rw [h, h0]; nofun
                · exact a1 _ (List.mem_reverse.2 h)
              | head hstep hrest ih =>
                rename_i u v
                intro hu hin
                obtain ⟨u1, u2⟩ := u
                dsimp only at hu hin
                subst hu
                rcases hin with h | h
                · subst h
                  simp [succ, h0] at hstep
                · rw [succ_eps] at hstep
                  rcases hstep with ⟨h1, h2⟩ | ⟨t, o, e, ho, rfl⟩
                  · exact ih h1 (b4 _ h _ h2)
                  · intro hm
                    refine next o (a5 u1 (List.mem_reverse.2 h) t o e ho) ?_ ⟨_, hrest, hm⟩
                    cases hw : w[u2]? with
                    | none => rw [hw] at ho; simp at ho
                    | some r => exact (List.getElem?_eq_some_iff.1 hw).1
            refine ⟨fun pc hpc => q0 pc (b2 hpc), ?_⟩
            intro k h1 h2
            by_cases hk : k = i
            · subst hk
              rcases b3 with h | h
              · rw [h]; exact not_wins_zero fold p w h0 _
              · exact q0 start h
            · rcases i2 with h | h
              · omega
              · exact h.2 k (by omega) h2

theorem nfa_ok (hc : Closed p) (h0 : p[0]? = some .fail) (start : Nat) (hs : start < p.length) :
    ((nfa fold p start w).1 = true ↔ ∃ k ≤ w.length, Wins fold p w (start, k)) ∧ (nfa fold p start w).2 ≤ 6 * p.length * (w.length + 1) := by
  unfold nfa
  obtain ⟨h1, h2⟩ := nfaSearch_ok fold p w hc h0 start hs (w.length + 1) 0 [] (by omega) ⟨List.nodup_nil, nofun, nofun⟩ nofun
  refine ⟨?_, by rw [Nat.mul_comm]; exact h1⟩
  constructor
  · intro hb
    rwa [if_pos hb] at h2
  · rintro ⟨k, hk, hw⟩
    by_contra hb
    rw [if_neg hb] at h2
    rcases h2 with h | h
    · omega
    · exact h.2 k (by omega) hk hw

theorem execute_ok (hc : Closed p) (h0 : p[0]? = some .fail) (start : Nat) (hs : start < p.length) (len : Nat) :
    ((execute fold p start w len).1 = true ↔ ∃ k ≤ w.length, Wins fold p w (start, k)) ∧ (execute fold p start w len).2 ≤ 6 * p.length * (w.length + 1) := by
  unfold execute
  split
  · obtain ⟨h1, h2⟩ := backtrack_ok fold p w hc start hs
    refine ⟨h1, Nat.le_trans h2 ?_⟩
    exact Nat.mul_le_mul_right _ (Nat.mul_le_mul_right _ (by omega))
  · exact nfa_ok fold p w hc h0 start hs

end Gofer.Regexp
