import Verif.Proof.RegexpRun
/-!
# The compiled program does what the tree says
-/
namespace Gofer.Regexp
open Relation
open Gofer.Spec.Regexp (Times)

variable (fold : Nat → Nat → Bool) (w : List Nat)

/-- What a tree fits. -/
def TFits : Tree → Nat → Nat → Prop
  | .empty, i, j => i = j
  | .test t, i, j => j = i + 1 ∧ (w[i]?.any fun r => t.ok fold r) = true
  | .place x, i, j => i = j ∧ placeOk w i x = true
  | .cap _ t, i, j => TFits t i j
  | .star _ t, i, j => ∃ n, Times (TFits t) n i j
  | .plus _ t, i, j => ∃ n, 1 ≤ n ∧ Times (TFits t) n i j
  | .quest _ t, i, j => i = j ∨ TFits t i j
  | .rep lo hi _ t, i, j => ∃ n, lo ≤ n ∧ (∀ m ∈ hi, n ≤ m) ∧ Times (TFits t) n i j
  | .cat a b, i, j => ∃ k, TFits a i k ∧ TFits b k j
  | .alt a b, i, j => TFits a i j ∨ TFits b i j

def NoRep : Tree → Prop
  | .rep _ _ _ _ => False
  | .cap _ t => NoRep t
  | .star _ t => NoRep t
  | .plus _ t => NoRep t
  | .quest _ t => NoRep t
  | .cat a b => NoRep a ∧ NoRep b
  | .alt a b => NoRep a ∧ NoRep b
  | _ => True

/-- Taking an arm of an instruction. -/
def InstTake (x : Option Inst) (pc i : Nat) (a : Arm) (j : Nat) : Prop :=
  match x with
  | some (.alt _ _) => a.1 = pc ∧ j = i
  | some (.place q _) => a = (pc, false) ∧ placeOk w i q = true ∧ j = i
  | some (.nop _) => a = (pc, false) ∧ j = i
  | some (.cap _ _) => a = (pc, false) ∧ j = i
  | some (.rune t _) => a = (pc, false) ∧ (w[i]?.any fun r => t.ok fold r) = true ∧ j = i + 1
  | _ => False

def Take (p : Prog) (pc i : Nat) (a : Arm) (j : Nat) : Prop := InstTake fold w p[pc]? pc i a j

def instTarget (x : Option Inst) (b : Bool) : Nat :=
  match x with
  | some (.alt o a) => if b then a else o
  | some (.place _ o) => o
  | some (.nop o) => o
  | some (.cap _ o) => o
  | some (.rune _ o) => o
  | _ => 0

def target (p : Prog) (a : Arm) : Nat := instTarget p[a.1]? a.2

def instValid (x : Option Inst) (b : Bool) : Prop :=
  match x with
  | some (.alt _ _) => True
  | some .fail => False
  | some .mtch => False
  | some _ => b = false
  | none => False

def Valid (p : Prog) (a : Arm) : Prop := instValid p[a.1]? a.2

theorem take_valid {p : Prog} {pc i j : Nat} {a : Arm} (h : Take fold w p pc i a j) : a.1 = pc ∧ Valid p a := by
  unfold Take InstTake at h
  unfold Valid instValid
  split at h
  · rename_i e
    refine ⟨h.1, ?_⟩
    rw [h.1, e]; trivial
  · rename_i e
    obtain ⟨rfl, -⟩ := h
    simp [e]
  · rename_i e
    obtain ⟨rfl, -⟩ := h
    simp [e]
  · rename_i e
    obtain ⟨rfl, -⟩ := h
    simp [e]
  · rename_i e
    obtain ⟨rfl, -⟩ := h
    simp [e]
  · cases h

theorem succ_take (p : Prog) (pc i : Nat) (y : Nat × Nat) : y ∈ succ fold p w (pc, i) ↔ ∃ a, Take fold w p pc i a y.2 ∧ target p a = y.1 := by
  obtain ⟨y1, y2⟩ := y
  unfold succ Take InstTake target
  dsimp only
  cases e : p[pc]? with
  | none => simp
  | some x =>
    cases x with
    | fail => simp
    | mtch => simp
    | alt o a =>
      simp only [List.mem_cons, Prod.mk.injEq, List.not_mem_nil, or_false]
      constructor
      · rintro (⟨rfl, rfl⟩ | ⟨rfl, rfl⟩)
        · exact ⟨(pc, false), ⟨rfl, rfl⟩, by simp [e, instTarget]⟩
        · exact ⟨(pc, true), ⟨rfl, rfl⟩, by simp [e, instTarget]⟩
      · rintro ⟨⟨a1, a2⟩, ⟨h1, h2⟩, h3⟩
        dsimp only at h1 h3
        subst h1
        subst h2
        rw [e] at h3
        cases a2 <;> simp [instTarget] at h3 <;> simp [h3]
    | place q o =>
      dsimp only
      constructor
      · intro h
        split at h <;> simp at h
        rename_i hq
        exact ⟨(pc, false), ⟨rfl, hq, h.2⟩, by simp [e, instTarget, h.1]⟩
      · rintro ⟨a, ⟨rfl, hq, rfl⟩, h3⟩
        simp [e, instTarget] at h3
        simp [hq, h3]
    | nop o =>
      dsimp only
      constructor
      · intro h
        simp at h
        exact ⟨(pc, false), ⟨rfl, h.2⟩, by simp [e, instTarget, h.1]⟩
      · rintro ⟨a, ⟨rfl, rfl⟩, h3⟩
        simp [e, instTarget] at h3
        simp [h3]
    | cap n o =>
      dsimp only
      constructor
      · intro h
        simp at h
        exact ⟨(pc, false), ⟨rfl, h.2⟩, by simp [e, instTarget, h.1]⟩
      · rintro ⟨a, ⟨rfl, rfl⟩, h3⟩
        simp [e, instTarget] at h3
        simp [h3]
    | rune t o =>
      dsimp only
      constructor
      · intro h
        split at h
        · rename_i hq
          simp at h
          exact ⟨(pc, false), ⟨rfl, hq, h.2⟩, by simp [e, instTarget, h.1]⟩
        · cases h
      · rintro ⟨a, ⟨rfl, hq, rfl⟩, h3⟩
        simp [e, instTarget] at h3
        rw [if_pos hq]
        simp [h3]

/-! ## Patching -/

theorem set_valid (x : Inst) (v : Nat) (b c : Bool) : instValid (some (x.set v b)) c ↔ instValid (some x) c := by
  cases x <;> cases b <;> simp [Inst.set, instValid]

theorem set_take (x : Inst) (v : Nat) (b : Bool) (pc i j : Nat) (a : Arm) : InstTake fold w (some (x.set v b)) pc i a j ↔ InstTake fold w (some x) pc i a j := by
  cases x <;> cases b <;> simp [Inst.set, InstTake]

theorem set_target (x : Inst) (v : Nat) (b c : Bool) (hb : instValid (some x) b) (hc : instValid (some x) c) :
    instTarget (some (x.set v b)) c = if b = c then v else instTarget (some x) c := by
  cases x <;> cases b <;> cases c <;> simp_all [Inst.set, instTarget, instValid]

theorem patch_length (p : Prog) (l : List Arm) (v : Nat) : (patch p l v).length = p.length := by
  unfold patch
  induction l generalizing p with
  | nil => rfl
  | cons a l ih => rw [List.foldl_cons, ih, List.length_modify]

theorem patch_cons (p : Prog) (a : Arm) (l : List Arm) (v : Nat) : patch p (a :: l) v = patch (p.modify a.1 (Inst.set v a.2)) l v := rfl

theorem mod_valid (p : Prog) (a b : Arm) (v : Nat) : Valid (p.modify a.1 (Inst.set v a.2)) b ↔ Valid p b := by
  unfold Valid
  rw [List.getElem?_modify]
  cases p[b.1]? with
  | none => simp
  | some x =>
    simp only [Option.map_eq_map, Option.map_some]
    split
    · exact set_valid x v a.2 b.2
    · rfl

theorem mod_take (p : Prog) (a : Arm) (v pc i j : Nat) (b : Arm) : Take fold w (p.modify a.1 (Inst.set v a.2)) pc i b j ↔ Take fold w p pc i b j := by
  unfold Take
  rw [List.getElem?_modify]
  cases p[pc]? with
  | none => simp
  | some x =>
    simp only [Option.map_eq_map, Option.map_some]
    split
    · exact set_take fold w x v a.2 pc i j b
    · rfl

theorem mod_target (p : Prog) (a b : Arm) (v : Nat) (ha : Valid p a) (hb : Valid p b) : target (p.modify a.1 (Inst.set v a.2)) b = if a = b then v else target p b := by
  unfold target
  rw [List.getElem?_modify]
  unfold Valid at ha hb
  by_cases e : a.1 = b.1
  · rw [e] at ha ⊢
    cases hx : p[b.1]? with
    | none => rw [hx] at ha; cases ha
    | some x =>
      rw [hx] at ha hb
      simp only [Option.map_eq_map, Option.map_some, if_true]
      rw [set_target x v a.2 b.2 ha hb]
      by_cases h2 : a.2 = b.2
      · rw [if_pos h2, if_pos (Prod.ext e h2)]
      · rw [if_neg h2, if_neg fun h => h2 (by rw [h])]
  · have : a ≠ b := fun h => e (by rw [h])
    simp [e, this]

theorem patch_valid (p : Prog) (l : List Arm) (v : Nat) (b : Arm) : Valid (patch p l v) b ↔ Valid p b := by
  induction l generalizing p with
  | nil => rfl
  | cons a l ih => rw [patch_cons, ih, mod_valid]

theorem patch_take (p : Prog) (l : List Arm) (v pc i j : Nat) (b : Arm) : Take fold w (patch p l v) pc i b j ↔ Take fold w p pc i b j := by
  induction l generalizing p with
  | nil => rfl
  | cons a l ih => rw [patch_cons, ih, mod_take]

theorem patch_target (p : Prog) (l : List Arm) (v : Nat) (hl : ∀ a ∈ l, Valid p a) (b : Arm) (hb : Valid p b) : target (patch p l v) b = if b ∈ l then v else target p b := by
  induction l generalizing p with
  | nil => simp [patch]
  | cons a l ih =>
    rw [patch_cons, ih _ (fun x hx => (mod_valid p a x v).2 (hl x (List.mem_cons_of_mem _ hx))) ((mod_valid p a b v).2 hb), mod_target p a b v (hl a List.mem_cons_self) hb]
    by_cases h1 : b ∈ l
    · simp [h1]
    · by_cases h2 : a = b
      · simp [h2]
      · have : b ≠ a := fun h => h2 h.symm
        simp [h1, h2, this]

theorem patch_other (p : Prog) (l : List Arm) (v k : Nat) (h : ∀ a ∈ l, a.1 ≠ k) : (patch p l v)[k]? = p[k]? := by
  induction l generalizing p with
  | nil => rfl
  | cons a l ih =>
    rw [patch_cons, ih _ fun x hx => h x (List.mem_cons_of_mem _ hx), List.getElem?_modify]
    simp [h a List.mem_cons_self]

/-! ## Runs -/

/-- A run from an instruction to the first arm in `O`. -/
inductive Run (p : Prog) (O : Arm → Prop) : Nat → Nat → Arm → Nat → Prop
  | one {pc i : Nat} {a : Arm} {j : Nat} : Take fold w p pc i a j → O a → Run p O pc i a j
  | more {pc i : Nat} {b : Arm} {k : Nat} {a : Arm} {j : Nat} : Take fold w p pc i b k → ¬ O b → Run p O (target p b) k a j → Run p O pc i a j

/-- The instructions from `lo` up to `hi` are those of the fragment `f`, its arms lead to `v`, and it fits `R`. -/
structure Emb (p : Prog) (lo hi : Nat) (f : Frag) (v : Nat) (R : Nat → Nat → Prop) : Prop where
  start : lo ≤ f.i ∧ f.i < hi
  out : ∀ a ∈ f.out, lo ≤ a.1 ∧ a.1 < hi ∧ Valid p a ∧ target p a = v
  ins : ∀ a, lo ≤ a.1 → a.1 < hi → Valid p a → a ∈ f.out ∨ (lo ≤ target p a ∧ target p a < hi)
  sem : ∀ i j, (∃ a, Run fold w p (· ∈ f.out) f.i i a j) ↔ R i j

variable {fold w}

theorem run_stop {p : Prog} {O : Arm → Prop} {pc i : Nat} {a : Arm} {j : Nat} (h : Run fold w p O pc i a j) : O a := by
  induction h with
  | one _ h => exact h
  | more _ _ _ ih => exact ih

/-- The same region in another program and with another set of arms to stop at. -/
theorem run_congr {p p' : Prog} {lo hi : Nat} {O O' : Arm → Prop} (hin : ∀ a, lo ≤ a.1 → a.1 < hi → Valid p a → O a ∨ (lo ≤ target p a ∧ target p a < hi))
    (ht : ∀ pc i a j, lo ≤ pc → pc < hi → Take fold w p pc i a j → Take fold w p' pc i a j)
    (hO : ∀ a, lo ≤ a.1 → a.1 < hi → Valid p a → (O a ↔ O' a)) (htar : ∀ a, lo ≤ a.1 → a.1 < hi → Valid p a → ¬ O a → target p' a = target p a)
    {pc i : Nat} {a : Arm} {j : Nat} (h : Run fold w p O pc i a j) (h1 : lo ≤ pc) (h2 : pc < hi) : Run fold w p' O' pc i a j := by
  induction h with
  | one hk ho =>
    obtain ⟨e, hv⟩ := take_valid fold w hk
    exact .one (ht _ _ _ _ h1 h2 hk) ((hO _ (by omega) (by omega) hv).1 ho)
  | more hk ho _ ih =>
    rename_i pc i b k a j _
    obtain ⟨e, hv⟩ := take_valid fold w hk
    have h3 : lo ≤ b.1 := by omega
    have h4 : b.1 < hi := by omega
    have hr := (hin b h3 h4 hv).resolve_left ho
    refine .more (ht _ _ _ _ h1 h2 hk) (fun h => ho ((hO b h3 h4 hv).2 h)) ?_
    rw [htar b h3 h4 hv ho]
    exact ih hr.1 hr.2

/-- A fragment in a program that differs elsewhere, and in where its arms lead to. -/
theorem emb_move {p p' : Prog} {lo hi : Nat} {f : Frag} {v v' : Nat} {R : Nat → Nat → Prop} (h : Emb fold w p lo hi f v R)
    (ht : ∀ pc i a j, lo ≤ pc → pc < hi → (Take fold w p pc i a j ↔ Take fold w p' pc i a j)) (hv : ∀ a, lo ≤ a.1 → a.1 < hi → (Valid p a ↔ Valid p' a))
    (htar : ∀ a, lo ≤ a.1 → a.1 < hi → Valid p a → a ∉ f.out → target p' a = target p a) (hout : ∀ a ∈ f.out, target p' a = v') : Emb fold w p' lo hi f v' R := by
  have hin' : ∀ a, lo ≤ a.1 → a.1 < hi → Valid p' a → a ∈ f.out ∨ (lo ≤ target p' a ∧ target p' a < hi) := by
    intro a h1 h2 h3
    by_cases ha : a ∈ f.out
    · exact .inl ha
    · have := (hv a h1 h2).2 h3
      rw [htar a h1 h2 this ha]
      exact h.ins a h1 h2 this
  refine ⟨h.start, ?_, hin', ?_⟩
  · intro a ha
    obtain ⟨h1, h2, h3, h4⟩ := h.out a ha
    exact ⟨h1, h2, (hv a h1 h2).1 h3, hout a ha⟩
  · intro i j
    rw [← h.sem]
    constructor
    · rintro ⟨a, ha⟩
      exact ⟨a, run_congr hin' (fun pc i a j h1 h2 => (ht pc i a j h1 h2).2) (fun _ _ _ _ => Iff.rfl) (fun a h1 h2 h3 h4 => (htar a h1 h2 ((hv a h1 h2).2 h3) h4).symm) ha h.start.1 h.start.2⟩
    · rintro ⟨a, ha⟩
      exact ⟨a, run_congr h.ins (fun pc i a j h1 h2 => (ht pc i a j h1 h2).1) (fun _ _ _ _ => Iff.rfl) htar ha h.start.1 h.start.2⟩

theorem emb_same {p p' : Prog} {lo hi : Nat} {f : Frag} {v : Nat} {R : Nat → Nat → Prop} (h : Emb fold w p lo hi f v R) (hs : ∀ k, lo ≤ k → k < hi → p'[k]? = p[k]?) : Emb fold w p' lo hi f v R := by
  refine emb_move h ?_ ?_ ?_ ?_
  · intro pc i a j h1 h2
    unfold Take
    rw [hs pc h1 h2]
  · intro a h1 h2
    unfold Valid
    rw [hs _ h1 h2]
  · intro a h1 h2 _ _
    unfold target
    rw [hs _ h1 h2]
  · intro a ha
    obtain ⟨h1, h2, _, h4⟩ := h.out a ha
    unfold target at h4 ⊢
    rw [hs _ h1 h2, h4]

theorem emb_patch {p : Prog} {lo hi : Nat} {f : Frag} {v v' : Nat} {R : Nat → Nat → Prop} (h : Emb fold w p lo hi f v R) : Emb fold w (patch p f.out v') lo hi f v' R := by
  have hl : ∀ a ∈ f.out, Valid p a := fun a ha => (h.out a ha).2.2.1
  refine emb_move h ?_ ?_ ?_ ?_
  · intro pc i a j _ _
    rw [patch_take]
  · intro a _ _
    rw [patch_valid]
  · intro a _ _ h3 h4
    rw [patch_target p _ _ hl a h3, if_neg h4]
  · intro a ha
    rw [patch_target p _ _ hl a (hl a ha), if_pos ha]

/-- Through a fragment and on. -/
theorem through {p : Prog} {lo hi : Nat} {f : Frag} {v : Nat} {R : Nat → Nat → Prop} (h : Emb fold w p lo hi f v R) {O : Arm → Prop} (hO : ∀ a, lo ≤ a.1 → a.1 < hi → ¬ O a)
    {pc i : Nat} {a : Arm} {j : Nat} (hr : Run fold w p O pc i a j) (h1 : lo ≤ pc) (h2 : pc < hi) : ∃ b k, Run fold w p (· ∈ f.out) pc i b k ∧ Run fold w p O v k a j := by
  induction hr with
  | one hk ho =>
    obtain ⟨e, _⟩ := take_valid fold w hk
    exact absurd ho (hO _ (by omega) (by omega))
  | more hk ho hrest ih =>
    rename_i pc i b k a j
    obtain ⟨e, hv⟩ := take_valid fold w hk
    by_cases hb : b ∈ f.out
    · refine ⟨b, k, .one hk hb, ?_⟩
      rw [(h.out b hb).2.2.2] at hrest
      exact hrest
    · have hin := (h.ins b (by omega) (by omega) hv).resolve_left hb
      obtain ⟨c, k', hc, hd⟩ := ih hin.1 hin.2
      exact ⟨c, k', .more hk hb hc, hd⟩

theorem through' {p : Prog} {lo hi : Nat} {f : Frag} {v : Nat} {R : Nat → Nat → Prop} (h : Emb fold w p lo hi f v R) {O : Arm → Prop} (hO : ∀ a, lo ≤ a.1 → a.1 < hi → ¬ O a)
    {pc i : Nat} {b : Arm} {k : Nat} (hr : Run fold w p (· ∈ f.out) pc i b k) (h1 : lo ≤ pc) (h2 : pc < hi) {a : Arm} {j : Nat} (hd : Run fold w p O v k a j) : Run fold w p O pc i a j := by
  induction hr with
  | one hk ho =>
    obtain ⟨e, _⟩ := take_valid fold w hk
    refine .more hk (hO _ (by omega) (by omega)) ?_
    rw [(h.out _ ho).2.2.2]
    exact hd
  | more hk ho hrest ih =>
    rename_i pc i b k a j
    obtain ⟨e, hv⟩ := take_valid fold w hk
    have hin := (h.ins b (by omega) (by omega) hv).resolve_left ho
    exact .more hk (hO _ (by omega) (by omega)) (ih hin.1 hin.2 hd)

theorem through_iff {p : Prog} {lo hi : Nat} {f : Frag} {v : Nat} {R : Nat → Nat → Prop} (h : Emb fold w p lo hi f v R) {O : Arm → Prop} (hO : ∀ a, lo ≤ a.1 → a.1 < hi → ¬ O a) {i j : Nat} :
    (∃ a, Run fold w p O f.i i a j) ↔ ∃ k, R i k ∧ ∃ a, Run fold w p O v k a j := by
  constructor
  · rintro ⟨a, ha⟩
    obtain ⟨b, k, hb, hd⟩ := through h hO ha h.start.1 h.start.2
    exact ⟨k, (h.sem i k).1 ⟨b, hb⟩, a, hd⟩
  · rintro ⟨k, hk, a, ha⟩
    obtain ⟨b, hb⟩ := (h.sem i k).2 hk
    exact ⟨a, through' h hO hb h.start.1 h.start.2 ha⟩

/-- The last fragment: the arms to stop at are its own. -/
theorem last_iff {p : Prog} {lo hi : Nat} {f : Frag} {v : Nat} {R : Nat → Nat → Prop} (h : Emb fold w p lo hi f v R) {O : Arm → Prop} (hO : ∀ a, lo ≤ a.1 → a.1 < hi → (O a ↔ a ∈ f.out)) {i j : Nat} :
    (∃ a, Run fold w p O f.i i a j) ↔ R i j := by
  rw [← h.sem]
  constructor
  · rintro ⟨a, ha⟩
    exact ⟨a, run_congr (fun a h1 h2 h3 => (h.ins a h1 h2 h3).imp (hO a h1 h2).2 id) (fun _ _ _ _ _ _ h => h) (fun a h1 h2 _ => hO a h1 h2) (fun _ _ _ _ _ => rfl) ha h.start.1 h.start.2⟩
  · rintro ⟨a, ha⟩
    exact ⟨a, run_congr h.ins (fun _ _ _ _ _ _ h => h) (fun a h1 h2 _ => (hO a h1 h2).symm) (fun _ _ _ _ _ => rfl) ha h.start.1 h.start.2⟩

/-! ## The combinations -/

theorem emb_cat {p : Prog} {lo mid hi : Nat} {f g : Frag} {v : Nat} {R S : Nat → Nat → Prop} (hf : Emb fold w p lo mid f g.i R) (hg : Emb fold w p mid hi g v S) (n : Bool) :
    Emb fold w p lo hi ⟨f.i, g.out, n⟩ v (fun i j => ∃ k, R i k ∧ S k j) := by
  have a1 := hf.start
  have a2 := hg.start
  refine ⟨⟨a1.1, by simp only; omega⟩, ?_, ?_, ?_⟩
  · intro a ha
    obtain ⟨h1, h2, h3⟩ := hg.out a ha
    exact ⟨by omega, h2, h3⟩
  · intro a h1 h2 h3
    by_cases hm : a.1 < mid
    · refine .inr ?_
      rcases hf.ins a h1 hm h3 with h | h
      · rw [(hf.out a h).2.2.2]
        omega
      · omega
    · rcases hg.ins a (by omega) h2 h3 with h | h
      · exact .inl h
      · exact .inr (by omega)
  · intro i j
    show (∃ a, Run fold w p (· ∈ g.out) f.i i a j) ↔ _
    rw [through_iff hf (O := (· ∈ g.out)) fun a _ h2 h => by have := (hg.out a h).1; omega]
    constructor
    · rintro ⟨k, hk, ha⟩
      exact ⟨k, hk, (hg.sem k j).1 ha⟩
    · rintro ⟨k, hk, ha⟩
      exact ⟨k, hk, (hg.sem k j).2 ha⟩

open Classical in
theorem run_alt {p : Prog} {O : Arm → Prop} {pc o x i j : Nat} (e : p[pc]? = some (.alt o x)) :
    (∃ a, Run fold w p O pc i a j) ↔ (if O (pc, false) then i = j else ∃ a, Run fold w p O o i a j) ∨ (if O (pc, true) then i = j else ∃ a, Run fold w p O x i a j) := by
  have hk : ∀ b, Take fold w p pc i (pc, b) i := by
    intro b
    unfold Take
    rw [e]
    exact ⟨rfl, rfl⟩
  have t0 : target p (pc, false) = o := by simp [target, e, instTarget]
  have t1 : target p (pc, true) = x := by simp [target, e, instTarget]
  constructor
  · rintro ⟨a, ha⟩
    cases ha with
    | one h ho =>
      unfold Take at h
      rw [e] at h
      obtain ⟨h1, h2⟩ := h
      obtain ⟨a1, a2⟩ := a
      dsimp only at h1
      subst h1
      cases a2
      · exact .inl (by rw [if_pos ho]; exact h2.symm)
      · exact .inr (by rw [if_pos ho]; exact h2.symm)
    | more h ho hr =>
      rename_i b k
      unfold Take at h
      rw [e] at h
      obtain ⟨h1, h2⟩ := h
      obtain ⟨a1, a2⟩ := b
      dsimp only at h1
      subst h1
      subst h2
      cases a2
      · rw [t0] at hr
        exact .inl (by rw [if_neg ho]; exact ⟨a, hr⟩)
      · rw [t1] at hr
        exact .inr (by rw [if_neg ho]; exact ⟨a, hr⟩)
  · rintro (h | h)
    · split at h
      · rename_i ho
        subst h
        exact ⟨_, .one (hk false) ho⟩
      · rename_i ho
        obtain ⟨a, ha⟩ := h
        exact ⟨a, .more (hk false) ho (by rw [t0]; exact ha)⟩
    · split at h
      · rename_i ho
        subst h
        exact ⟨_, .one (hk true) ho⟩
      · rename_i ho
        obtain ⟨a, ha⟩ := h
        exact ⟨a, .more (hk true) ho (by rw [t1]; exact ha)⟩

theorem alt_arms {p : Prog} {n o x : Nat} (e : p[n]? = some (.alt o x)) (b : Bool) : Valid p (n, b) ∧ target p (n, b) = if b then x else o := by
  constructor
  · unfold Valid; simp only [e]; trivial
  · unfold target; simp only [e]; rfl

theorem emb_alt {p : Prog} {lo mid n : Nat} {f g : Frag} {v : Nat} {R S : Nat → Nat → Prop} (hf : Emb fold w p lo mid f v R) (hg : Emb fold w p mid n g v S) (e : p[n]? = some (.alt f.i g.i)) (b : Bool) :
    Emb fold w p lo (n + 1) ⟨n, f.out ++ g.out, b⟩ v (fun i j => R i j ∨ S i j) := by
  have a1 := hf.start
  have a2 := hg.start
  have hn : ∀ c, ¬ (n, c) ∈ f.out ++ g.out := by
    intro c h
    rcases List.mem_append.1 h with h | h
    · have := (hf.out _ h).2.1; simp only at this; omega
    · have := (hg.out _ h).2.1; simp only at this; omega
  refine ⟨⟨by simp only; omega, by simp⟩, ?_, ?_, ?_⟩
  · intro a ha
    rcases List.mem_append.1 ha with ha | ha
    · obtain ⟨h1, h2, h3⟩ := hf.out a ha
      exact ⟨h1, by omega, h3⟩
    · obtain ⟨h1, h2, h3⟩ := hg.out a ha
      exact ⟨by omega, by omega, h3⟩
  · intro a h1 h2 h3
    by_cases hm : a.1 < mid
    · rcases hf.ins a h1 hm h3 with h | h
      · exact .inl (List.mem_append_left _ h)
      · exact .inr (by omega)
    · by_cases hm2 : a.1 < n
      · rcases hg.ins a (by omega) hm2 h3 with h | h
        · exact .inl (List.mem_append_right _ h)
        · exact .inr (by omega)
      · have : a = (n, a.2) := Prod.ext (by simp only; omega) rfl
        rw [this, (alt_arms e a.2).2]
        refine .inr ?_
        split <;> omega
  · intro i j
    show (∃ a, Run fold w p (· ∈ f.out ++ g.out) n i a j) ↔ _
    rw [run_alt e, if_neg (hn false), if_neg (hn true), last_iff hf, last_iff hg]
    · intro a h1 h2
      rw [List.mem_append]
      exact or_iff_right fun h => by have := (hf.out a h).2.1; omega
    · intro a h1 h2
      rw [List.mem_append]
      exact or_iff_left fun h => by have := (hg.out a h).1; omega

theorem emb_quest {p : Prog} {lo n : Nat} {f : Frag} {R : Nat → Nat → Prop} (hf : Emb fold w p lo n f 0 R) (c : Bool) (e : p[n]? = some (if c then .alt f.i 0 else .alt 0 f.i)) (b : Bool) :
    Emb fold w p lo (n + 1) ⟨n, (n, c) :: f.out, b⟩ 0 (fun i j => i = j ∨ R i j) := by
  have a1 := hf.start
  have hn : ∀ d, (n, d) ∉ f.out := fun d h => by have := (hf.out _ h).2.1; simp only at this; omega
  have hv : Valid p (n, c) ∧ target p (n, c) = 0 := by
    cases c
    · have := alt_arms (by simpa using e) false; simpa using this
    · have := alt_arms (by simpa using e) true; simpa using this
  have hother : target p (n, !c) = f.i := by
    cases c
    · have := alt_arms (by simpa using e) true; simpa using this.2
    · have := alt_arms (by simpa using e) false; simpa using this.2
  refine ⟨⟨by simp only; omega, by simp⟩, ?_, ?_, ?_⟩
  · intro a ha
    rcases List.mem_cons.1 ha with rfl | ha
    · exact ⟨by simp only; omega, by simp, hv.1, hv.2⟩
    · obtain ⟨h1, h2, h3⟩ := hf.out a ha
      exact ⟨h1, by omega, h3⟩
  · intro a h1 h2 h3
    by_cases hm : a.1 < n
    · rcases hf.ins a h1 hm h3 with h | h
      · exact .inl (List.mem_cons_of_mem _ h)
      · exact .inr (by omega)
    · have ha : a = (n, a.2) := Prod.ext (by simp only; omega) rfl
      by_cases hc : a.2 = c
      · rw [ha, hc]
        exact .inl List.mem_cons_self
      · have : a.2 = !c := by revert hc; cases a.2 <;> cases c <;> simp
        rw [ha, this, hother]
        exact .inr (by omega)
  · intro i j
    show (∃ a, Run fold w p (· ∈ (n, c) :: f.out) n i a j) ↔ _
    have hl := last_iff hf (O := (· ∈ (n, c) :: f.out)) (i := i) (j := j) (by
      intro a h1 h2
      rw [List.mem_cons]
      exact or_iff_right fun h => by rw [h] at h2; simp only at h2; omega)
    cases c
    · rw [run_alt (by simpa using e), if_pos List.mem_cons_self, if_neg (by simp [hn]), hl]
    · rw [run_alt (by simpa using e), if_neg (by simp [hn]), if_pos List.mem_cons_self, hl]
      exact or_comm

theorem run_loop {p : Prog} {lo n : Nat} {f : Frag} {R : Nat → Nat → Prop} (hf : Emb fold w p lo n f n R) (c : Bool) (e : p[n]? = some (if c then .alt f.i 0 else .alt 0 f.i)) {i j : Nat} :
    (∃ a, Run fold w p (· ∈ [(n, c)]) n i a j) ↔ ∃ m, Times R m i j := by
  have hO : ∀ a : Arm, lo ≤ a.1 → a.1 < n → ¬ a ∈ [(n, c)] := by
    intro a _ h2 h
    simp only [List.mem_cons, List.not_mem_nil, or_false] at h
    rw [h] at h2
    simp at h2
  have unroll : ∀ i j, (∃ a, Run fold w p (· ∈ [(n, c)]) n i a j) ↔ i = j ∨ ∃ a, Run fold w p (· ∈ [(n, c)]) f.i i a j := by
    intro i j
    cases c
    · rw [run_alt (by simpa using e), if_pos List.mem_cons_self, if_neg (by simp)]
    · rw [run_alt (by simpa using e), if_neg (by simp), if_pos List.mem_cons_self]
      exact or_comm
  constructor
  · rintro ⟨a, ha⟩
    have key : ∀ pc i a j, Run fold w p (· ∈ [(n, c)]) pc i a j → (pc = n → ∃ m, Times R m i j) ∧
        (lo ≤ pc → pc < n → ∃ b k, Run fold w p (· ∈ f.out) pc i b k ∧ ∃ m, Times R m k j) := by
      intro pc i a j h
      induction h with
      | one hk ho =>
        rename_i pc i a j
        obtain ⟨e1, _⟩ := take_valid fold w hk
        simp only [List.mem_cons, List.not_mem_nil, or_false] at ho
        refine ⟨?_, ?_⟩
        · rintro rfl
          have : j = i := by
            unfold Take at hk
            rw [e] at hk
            cases c <;> exact hk.2
          exact ⟨0, this.symm⟩
        · intro h1 h2
          rw [ho] at e1
          simp only at e1
          omega
      | more hk ho hrest ih =>
        rename_i pc i b k a j
        obtain ⟨e1, hv⟩ := take_valid fold w hk
        refine ⟨?_, ?_⟩
        · rintro rfl
          have hb : b = (pc, !c) := by
            have : b ≠ (pc, c) := by simpa using ho
            obtain ⟨b1, b2⟩ := b
            simp only at e1
            subst e1
            refine Prod.ext rfl ?_
            revert this
            cases b2 <;> cases c <;> simp
          have hki : k = i := by
            unfold Take at hk
            rw [e] at hk
            cases c <;> exact hk.2
          have ht : target p b = f.i := by
            rw [hb]
            cases c
            · have := alt_arms (by simpa using e) true; simpa using this.2
            · have := alt_arms (by simpa using e) false; simpa using this.2
          rw [ht] at ih hrest
          obtain ⟨d, k', hd, m, hm⟩ := ih.2 hf.start.1 hf.start.2
          rw [hki] at hd
          exact ⟨m + 1, k', (hf.sem _ _).1 ⟨d, hd⟩, hm⟩
        · intro h1 h2
          by_cases hb : b ∈ f.out
          · obtain ⟨m, hm⟩ := ih.1 (hf.out b hb).2.2.2
            exact ⟨b, k, .one hk hb, m, hm⟩
          · have hin := (hf.ins b (by omega) (by omega) hv).resolve_left hb
            obtain ⟨d, k', hd, hm⟩ := ih.2 hin.1 hin.2
            exact ⟨d, k', .more hk hb hd, hm⟩
    exact (key _ _ _ _ ha).1 rfl
  · rintro ⟨m, hm⟩
    induction m generalizing i with
    | zero => exact (unroll i j).2 (.inl hm)
    | succ m ih =>
      obtain ⟨k, hk, hm⟩ := hm
      exact (unroll i j).2 (.inr ((through_iff hf hO).2 ⟨k, hk, ih hm⟩))

theorem emb_loop {p : Prog} {lo n : Nat} {f : Frag} {R : Nat → Nat → Prop} (hf : Emb fold w p lo n f n R) (c : Bool) (e : p[n]? = some (if c then .alt f.i 0 else .alt 0 f.i)) (b : Bool) :
    Emb fold w p lo (n + 1) ⟨n, [(n, c)], b⟩ 0 (fun i j => ∃ m, Times R m i j) ∧ Emb fold w p lo (n + 1) ⟨f.i, [(n, c)], b⟩ 0 (fun i j => ∃ m, 1 ≤ m ∧ Times R m i j) := by
  have a1 := hf.start
  have hv : Valid p (n, c) ∧ target p (n, c) = 0 := by
    cases c
    · have := alt_arms (by simpa using e) false; simpa using this
    · have := alt_arms (by simpa using e) true; simpa using this
  have hother : target p (n, !c) = f.i := by
    cases c
    · have := alt_arms (by simpa using e) true; simpa using this.2
    · have := alt_arms (by simpa using e) false; simpa using this.2
  have hout : ∀ a ∈ [(n, c)], lo ≤ a.1 ∧ a.1 < n + 1 ∧ Valid p a ∧ target p a = 0 := by
    intro a ha
    simp only [List.mem_cons, List.not_mem_nil, or_false] at ha
    subst ha
    exact ⟨by simp only; omega, by simp, hv.1, hv.2⟩
  have hins : ∀ a : Arm, lo ≤ a.1 → a.1 < n + 1 → Valid p a → a ∈ [(n, c)] ∨ (lo ≤ target p a ∧ target p a < n + 1) := by
    intro a h1 h2 h3
    by_cases hm : a.1 < n
    · rcases hf.ins a h1 hm h3 with h | h
      · rw [(hf.out a h).2.2.2]
        exact .inr (by omega)
      · exact .inr (by omega)
    · have ha : a = (n, a.2) := Prod.ext (by simp only; omega) rfl
      by_cases hc : a.2 = c
      · rw [ha, hc]
        exact .inl List.mem_cons_self
      · have : a.2 = !c := by revert hc; cases a.2 <;> cases c <;> simp
        rw [ha, this, hother]
        exact .inr (by omega)
  refine ⟨⟨⟨by simp only; omega, by simp⟩, hout, hins, fun i j => run_loop hf c e⟩, ⟨⟨a1.1, by simp only; omega⟩, hout, hins, ?_⟩⟩
  intro i j
  show (∃ a, Run fold w p (· ∈ [(n, c)]) f.i i a j) ↔ _
  rw [through_iff hf (O := (· ∈ [(n, c)])) (by
    intro a _ h2 h
    simp only [List.mem_cons, List.not_mem_nil, or_false] at h
    rw [h] at h2
    simp at h2)]
  constructor
  · rintro ⟨k, hk, ha⟩
    obtain ⟨m, hm⟩ := (run_loop hf c e).1 ha
    exact ⟨m + 1, by omega, k, hk, hm⟩
  · rintro ⟨m, h1, hm⟩
    obtain ⟨m, rfl⟩ : ∃ k, m = k + 1 := ⟨m - 1, by omega⟩
    obtain ⟨k, hk, hm⟩ := hm
    exact ⟨k, hk, (run_loop hf c e).2 ⟨m, hm⟩⟩

/-- One instruction with one arm. -/
theorem emb_one {p : Prog} {n : Nat} {x : Inst} (e : p[n]? = some x) (hv : instValid (some x) false) (hv' : ¬ instValid (some x) true) (ht : instTarget (some x) false = 0) (b : Bool) :
    Emb fold w p n (n + 1) ⟨n, [(n, false)], b⟩ 0 (fun i j => InstTake fold w (some x) n i (n, false) j) := by
  refine ⟨⟨by simp, by simp⟩, ?_, ?_, ?_⟩
  · intro a ha
    simp only [List.mem_cons, List.not_mem_nil, or_false] at ha
    subst ha
    refine ⟨by simp, by simp, ?_, ?_⟩
    · unfold Valid; simp only [e]; exact hv
    · unfold target; simp only [e]; exact ht
  · intro a h1 h2 h3
    have ha : a = (n, a.2) := Prod.ext (by simp only; omega) rfl
    rw [ha] at h3 ⊢
    cases h : a.2
    · exact .inl List.mem_cons_self
    · rw [h] at h3
      unfold Valid at h3
      simp only [e] at h3
      exact absurd h3 hv'
  · intro i j
    constructor
    · rintro ⟨a, ha⟩
      have := run_stop ha
      simp only [List.mem_cons, List.not_mem_nil, or_false] at this
      subst this
      cases ha with
      | one h _ => unfold Take at h; simp only [e] at h; exact h
      | more h ho hrest =>
        rename_i c k
        obtain ⟨e1, e2⟩ := take_valid fold w h
        obtain ⟨c1, c2⟩ := c
        simp only at e1
        subst e1
        cases c2
        · simp at ho
        · unfold Valid at e2
          simp only [e] at e2
          exact absurd e2 hv'
    · intro h
      refine ⟨_, .one (a := (n, false)) ?_ (by simp)⟩
      unfold Take
      simp only [e]
      exact h

/-! ## `compile` -/

theorem emb_congr {p : Prog} {lo hi : Nat} {f : Frag} {v : Nat} {R S : Nat → Nat → Prop} (h : Emb fold w p lo hi f v R) (hRS : ∀ i j, R i j ↔ S i j) : Emb fold w p lo hi f v S :=
  ⟨h.start, h.out, h.ins, fun i j => (h.sem i j).trans (hRS i j)⟩

theorem getq_append (p : Prog) (x : Inst) (k : Nat) (h : k < p.length) : (p ++ [x])[k]? = p[k]? := List.getElem?_append_left h

theorem getq_last (p : Prog) (x : Inst) : (p ++ [x])[p.length]? = some x := by simp

/-- The new instructions come after the old ones, which are kept, and are a fragment that fits `R`. -/
def Ext (fold : Nat → Nat → Bool) (w : List Nat) (p : Prog) (x : Prog × Frag) (R : Nat → Nat → Prop) : Prop :=
  p.length < x.1.length ∧ (∀ k < p.length, x.1[k]? = p[k]?) ∧ Emb fold w x.1 p.length x.1.length x.2 0 R

theorem ext_emit (p : Prog) (x : Inst) (n : Bool) (hv : instValid (some x) false) (hv' : ¬ instValid (some x) true) (ht : instTarget (some x) false = 0) {R : Nat → Nat → Prop}
    (hR : ∀ i j, InstTake fold w (some x) p.length i (p.length, false) j ↔ R i j) : Ext fold w p (emit p x n) R := by
  refine ⟨by simp [emit], fun k hk => getq_append p x k hk, ?_⟩
  have := emb_one (fold := fold) (w := w) (getq_last p x) hv hv' ht n
  have hl : (emit p x n).1.length = p.length + 1 := by simp [emit]
  rw [hl]
  exact emb_congr this hR

theorem ext_cat {p : Prog} {x y : Prog × Frag} {R S : Nat → Nat → Prop} (hx : Ext fold w p x R) (hy : Ext fold w x.1 y S) : Ext fold w p (cat y.1 x.2 y.2) (fun i j => ∃ k, R i k ∧ S k j) := by
  obtain ⟨h1, h2, h3⟩ := hx
  obtain ⟨h4, h5, h6⟩ := hy
  have hout : ∀ a ∈ x.2.out, p.length ≤ a.1 ∧ a.1 < x.1.length := fun a ha => ⟨(h3.out a ha).1, (h3.out a ha).2.1⟩
  have hl : (patch y.1 x.2.out y.2.i).length = y.1.length := patch_length _ _ _
  refine ⟨by simp only [cat, hl]; omega, ?_, ?_⟩
  · intro k hk
    show (patch y.1 x.2.out y.2.i)[k]? = _
    rw [patch_other _ _ _ _ fun a ha => by have := hout a ha; omega, h5 k (by omega), h2 k hk]
  · show Emb fold w (patch y.1 x.2.out y.2.i) p.length (patch y.1 x.2.out y.2.i).length _ 0 _
    rw [hl]
    refine emb_cat (mid := x.1.length) (emb_patch (emb_same h3 fun k h7 h8 => h5 k h8)) (emb_same h6 fun k h7 h8 => ?_) _
    rw [patch_other _ _ _ _ fun a ha => by have := hout a ha; omega]

theorem ext_alt {p : Prog} {x y : Prog × Frag} {R S : Nat → Nat → Prop} (hx : Ext fold w p x R) (hy : Ext fold w x.1 y S) : Ext fold w p (alt y.1 x.2 y.2) (fun i j => R i j ∨ S i j) := by
  obtain ⟨h1, h2, h3⟩ := hx
  obtain ⟨h4, h5, h6⟩ := hy
  refine ⟨by simp only [alt, List.length_append]; omega, ?_, ?_⟩
  · intro k hk
    show (y.1 ++ [Inst.alt x.2.i y.2.i])[k]? = _
    rw [getq_append _ _ _ (by omega), h5 k (by omega), h2 k hk]
  · have hl : (alt y.1 x.2 y.2).1.length = y.1.length + 1 := by simp [alt]
    rw [hl]
    refine emb_alt (mid := x.1.length) (emb_same h3 fun k h7 h8 => ?_) (emb_same h6 fun k h7 h8 => ?_) (getq_last _ _) _
    · show (y.1 ++ [Inst.alt x.2.i y.2.i])[k]? = _
      rw [getq_append _ _ _ (by omega), h5 k h8]
    · exact getq_append _ _ _ h8

theorem ext_quest {p : Prog} {x : Prog × Frag} {R : Nat → Nat → Prop} (hx : Ext fold w p x R) (l : Bool) : Ext fold w p (quest x.1 x.2 l) (fun i j => i = j ∨ R i j) := by
  obtain ⟨h1, h2, h3⟩ := hx
  have e : quest x.1 x.2 l = (x.1 ++ [if !l then Inst.alt x.2.i 0 else .alt 0 x.2.i], ⟨x.1.length, (x.1.length, !l) :: x.2.out, true⟩) := by
    cases l <;> rfl
  rw [e]
  refine ⟨by simp only [List.length_append]; omega, ?_, ?_⟩
  · intro k hk
    show (x.1 ++ _)[k]? = _
    rw [getq_append _ _ _ (by omega), h2 k hk]
  · simp only [List.length_append, List.length_cons, List.length_nil]
    exact emb_quest (emb_same h3 fun k h7 h8 => getq_append _ _ _ h8) (!l) (getq_last _ _) true

theorem ext_loop {p : Prog} {x : Prog × Frag} {R : Nat → Nat → Prop} (hx : Ext fold w p x R) (l : Bool) :
    Ext fold w p (loop x.1 x.2 l) (fun i j => ∃ m, Times R m i j) ∧ Ext fold w p (plus x.1 x.2 l) (fun i j => ∃ m, 1 ≤ m ∧ Times R m i j) := by
  obtain ⟨h1, h2, h3⟩ := hx
  have e : loop x.1 x.2 l = (patch (x.1 ++ [if !l then Inst.alt x.2.i 0 else .alt 0 x.2.i]) x.2.out x.1.length, ⟨x.1.length, [(x.1.length, !l)], true⟩) := by
    cases l <;> rfl
  have e2 : plus x.1 x.2 l = (patch (x.1 ++ [if !l then Inst.alt x.2.i 0 else .alt 0 x.2.i]) x.2.out x.1.length, ⟨x.2.i, [(x.1.length, !l)], x.2.nullable⟩) := by
    unfold plus
    rw [e]
  have hout : ∀ a ∈ x.2.out, p.length ≤ a.1 ∧ a.1 < x.1.length := fun a ha => ⟨(h3.out a ha).1, (h3.out a ha).2.1⟩
  generalize hq : patch (x.1 ++ [if !l then Inst.alt x.2.i 0 else .alt 0 x.2.i]) x.2.out x.1.length = q at e e2
  have hl : q.length = x.1.length + 1 := by rw [← hq, patch_length]; simp
  have keep : ∀ k < p.length, q[k]? = p[k]? := by
    intro k hk
    rw [← hq, patch_other _ _ _ _ fun a ha => by have := hout a ha; omega, getq_append _ _ _ (by omega), h2 k hk]
  have hf : Emb fold w q p.length x.1.length x.2 x.1.length R := by
    rw [← hq]
    exact emb_patch (emb_same h3 fun k h7 h8 => getq_append _ _ _ h8)
  have he : q[x.1.length]? = some (if !l then Inst.alt x.2.i 0 else .alt 0 x.2.i) := by
    rw [← hq, patch_other _ _ _ _ fun a ha => by have := hout a ha; omega]
    exact getq_last _ _
  rw [e, e2]
  refine ⟨⟨by simp only [hl]; omega, keep, ?_⟩, ⟨by simp only [hl]; omega, keep, ?_⟩⟩
  · simp only [hl]
    exact (emb_loop hf (!l) he true).1
  · simp only [hl]
    exact (emb_loop hf (!l) he _).2

theorem ext_congr {p : Prog} {x : Prog × Frag} {R S : Nat → Nat → Prop} (h : Ext fold w p x R) (hRS : ∀ i j, R i j ↔ S i j) : Ext fold w p x S := ⟨h.1, h.2.1, emb_congr h.2.2 hRS⟩

theorem modify_app (l m : Prog) (n : Nat) (g : Inst → Inst) (h : n < l.length) : (l ++ m).modify n g = l.modify n g ++ m := by
  induction l generalizing n with
  | nil => simp at h
  | cons x l ih =>
    cases n with
    | zero => rfl
    | succ n => simp only [List.cons_append, List.modify_succ_cons, ih n (by simpa using h)]

theorem ext_bra (n : Nat) (p : Prog) : Ext fold w p (emit p (.cap n 0) true) (fun i j => i = j) :=
  ext_emit p (.cap n 0) true rfl (by simp [instValid]) rfl fun i j => by simp [InstTake, eq_comm]

/-- The closing instruction is made before the opening one is patched. -/
theorem ext_cap {p : Prog} (n : Nat) {R : Nat → Nat → Prop} (s : Prog × Frag) (hb : Ext fold w p (emit p (.cap (2 * n) 0) true) (fun i j => i = j)) (hs : Ext fold w (emit p (.cap (2 * n) 0) true).1 s R) :
    Ext fold w p (let b := emit p (.cap (2 * n) 0) true; let k := emit s.1 (.cap (2 * n + 1) 0) true; let c := cat k.1 b.2 s.2; cat c.1 c.2 k.2) R := by
  have hlt : p.length < s.1.length := by
    have := hb.1; have := hs.1; omega
  have h := ext_cat (ext_cat hb hs) (ext_bra (fold := fold) (w := w) (2 * n + 1) _)
  have e : (let b := emit p (.cap (2 * n) 0) true; let k := emit s.1 (.cap (2 * n + 1) 0) true; let c := cat k.1 b.2 s.2; cat c.1 c.2 k.2) =
      cat (emit (cat s.1 (emit p (.cap (2 * n) 0) true).2 s.2).1 (.cap (2 * n + 1) 0) true).1 (cat s.1 (emit p (.cap (2 * n) 0) true).2 s.2).2 (emit (cat s.1 (emit p (.cap (2 * n) 0) true).2 s.2).1 (.cap (2 * n + 1) 0) true).2 := by
    simp only [cat, emit, patch, List.foldl_cons, List.foldl_nil, List.length_modify]
    rw [modify_app _ _ _ _ hlt]
  rw [e]
  refine ext_congr h fun i j => ?_
  constructor
  · rintro ⟨k, ⟨k', rfl, h⟩, rfl⟩; exact h
  · exact fun h => ⟨j, ⟨i, rfl, h⟩, rfl⟩

theorem compile_ext : ∀ (t : Tree) (p : Prog), NoRep t → Ext fold w p (compile t p) (TFits fold w t)
  | .empty, p, _ => by
    refine ext_emit p (.nop 0) true rfl (by simp [instValid]) rfl fun i j => ?_
    simp [InstTake, TFits, eq_comm]
  | .test t, p, _ => by
    refine ext_emit p (.rune t 0) false rfl (by simp [instValid]) rfl fun i j => ?_
    simp only [InstTake, TFits, true_and]
    exact and_comm
  | .place x, p, _ => by
    refine ext_emit p (.place x 0) true rfl (by simp [instValid]) rfl fun i j => ?_
    simp only [InstTake, TFits, true_and]
    rw [and_comm, eq_comm]
  | .cap n t, p, h => ext_cap n _ (ext_bra (2 * n) p) (compile_ext t _ h)
  | .star l t, p, h => by
    have hs := compile_ext t p h
    show Ext fold w p (star (compile t p).1 (compile t p).2 l) _
    unfold star
    split
    · refine ext_congr (ext_quest (ext_loop hs l).2 l) fun i j => ?_
      simp only [TFits]
      constructor
      · rintro (rfl | ⟨m, _, hm⟩)
        · exact ⟨0, rfl⟩
        · exact ⟨m, hm⟩
      · rintro ⟨m, hm⟩
        cases m with
        | zero => exact .inl hm
        | succ m => exact .inr ⟨m + 1, by omega, hm⟩
    · exact (ext_loop hs l).1
  | .plus l t, p, h => (ext_loop (compile_ext t p h) l).2
  | .quest l t, p, h => ext_quest (compile_ext t p h) l
  | .rep _ _ _ _, _, h => h.elim
  | .cat a b, p, h => ext_cat (compile_ext a p h.1) (compile_ext b _ h.2)
  | .alt a b, p, h => ext_alt (compile_ext a p h.1) (compile_ext b _ h.2)

/-! ## The program -/

theorem valid_app (p : Prog) (x : Inst) (k : Nat) (hk : k < p.length) (h : Valid p (k, false)) : Valid (p ++ [x]) (k, false) := by
  unfold Valid at h ⊢
  simp only at h ⊢
  rw [getq_append _ _ _ hk]
  exact h

/-- The new instructions have arms. -/
def Armed (p : Prog) (x : Prog × Frag) : Prop := p.length ≤ x.1.length ∧ (∀ k < p.length, Valid p (k, false) → Valid x.1 (k, false)) ∧ ∀ k, p.length ≤ k → k < x.1.length → Valid x.1 (k, false)

theorem armed_emit (p : Prog) (x : Inst) (n : Bool) (hv : instValid (some x) false) : Armed p (emit p x n) := by
  refine ⟨by simp [emit], fun k hk h => valid_app p x k hk h, fun k h1 h2 => ?_⟩
  have : k = p.length := by simp only [emit, List.length_append, List.length_cons, List.length_nil] at h2; omega
  subst this
  unfold Valid
  simp only [emit, getq_last]
  exact hv

theorem armed_snoc {p : Prog} {x : Prog × Frag} (h : Armed p x) (i : Inst) (hv : instValid (some i) false) (l : List Arm) (v : Nat) (f : Frag) : Armed p (patch (x.1 ++ [i]) l v, f) := by
  obtain ⟨h1, h2, h3⟩ := h
  refine ⟨by simp only [patch_length, List.length_append]; omega, ?_, ?_⟩
  · intro k hk hv
    rw [patch_valid]
    exact valid_app _ _ _ (by omega) (h2 k hk hv)
  · intro k hk hl
    simp only [patch_length, List.length_append, List.length_cons, List.length_nil] at hl
    rw [patch_valid]
    by_cases hx : k < x.1.length
    · exact valid_app _ _ _ hx (h3 k hk hx)
    · have : k = x.1.length := by omega
      subst this
      unfold Valid
      simp only [getq_last]
      exact hv

theorem armed_patch {p : Prog} {x : Prog × Frag} (h : Armed p x) (l : List Arm) (v : Nat) (f : Frag) : Armed p (patch x.1 l v, f) := by
  obtain ⟨h1, h2, h3⟩ := h
  refine ⟨by simp only [patch_length]; omega, ?_, ?_⟩
  · intro k hk hv
    rw [patch_valid]
    exact h2 k hk hv
  · intro k hk hl
    simp only [patch_length] at hl
    rw [patch_valid]
    exact h3 k hk hl

theorem armed_trans {p : Prog} {x y : Prog × Frag} (h : Armed p x) (h' : Armed x.1 y) : Armed p y := by
  obtain ⟨h1, h2, h3⟩ := h
  obtain ⟨h4, h5, h6⟩ := h'
  refine ⟨by omega, fun k hk hv => h5 k (by omega) (h2 k hk hv), fun k h7 h8 => ?_⟩
  by_cases hx : k < x.1.length
  · exact h5 k hx (h3 k h7 hx)
  · exact h6 k (by omega) h8

theorem armed_loop {p : Prog} {x : Prog × Frag} (h : Armed p x) (l : Bool) : Armed p (loop x.1 x.2 l) := by
  cases l
  · exact armed_snoc h (.alt x.2.i 0) trivial _ _ _
  · exact armed_snoc h (.alt 0 x.2.i) trivial _ _ _

theorem armed_quest {p : Prog} {x : Prog × Frag} (h : Armed p x) (l : Bool) : Armed p (quest x.1 x.2 l) := by
  cases l
  · exact armed_snoc h (.alt x.2.i 0) trivial [] 0 _
  · exact armed_snoc h (.alt 0 x.2.i) trivial [] 0 _

theorem armed_plus {p : Prog} {x : Prog × Frag} (h : Armed p x) (l : Bool) : Armed p (plus x.1 x.2 l) := armed_loop h l

theorem compile_armed : ∀ (t : Tree) (p : Prog), Armed p (compile t p)
  | .empty, p => armed_emit p _ _ rfl
  | .test _, p => armed_emit p _ _ rfl
  | .place _, p => armed_emit p _ _ rfl
  | .cap n t, p => armed_patch (armed_patch (armed_trans (armed_trans (armed_emit p (.cap (2 * n) 0) true rfl) (compile_armed t _)) (armed_emit _ (.cap (2 * n + 1) 0) true rfl)) _ _ ⟨0, [], false⟩) _ _ _
  | .star l t, p => by
    show Armed p (star (compile t p).1 (compile t p).2 l)
    unfold star
    split
    · exact armed_quest (armed_plus (compile_armed t p) l) l
    · exact armed_loop (compile_armed t p) l
  | .plus l t, p => armed_plus (compile_armed t p) l
  | .quest l t, p => armed_quest (compile_armed t p) l
  | .rep _ _ _ t, p => compile_armed t p
  | .cat a b, p => armed_patch (armed_trans (compile_armed a p) (compile_armed b _)) _ _ _
  | .alt a b, p => armed_snoc (armed_trans (compile_armed a p) (compile_armed b _)) (.alt _ _) trivial [] 0 _

theorem run_reach {p : Prog} {O : Arm → Prop} {pc i : Nat} {a : Arm} {j : Nat} (h : Run fold w p O pc i a j) : Reach fold p w (pc, i) (target p a, j) := by
  induction h with
  | one h _ => exact .single ((succ_take fold w p _ _ (_, _)).2 ⟨_, h, rfl⟩)
  | more h _ _ ih => exact .head ((succ_take fold w p _ _ (_, _)).2 ⟨_, h, rfl⟩) ih

theorem reach_run {p : Prog} {lo hi : Nat} {f : Frag} {v : Nat} {R : Nat → Nat → Prop} (h : Emb fold w p lo hi f v R) (hm : ∀ k, lo ≤ k → k < hi → p[k]? ≠ some .mtch) {x y : Nat × Nat} (hy : p[y.1]? = some .mtch)
    (hr : Reach fold p w x y) : lo ≤ x.1 → x.1 < hi → ∃ a j, Run fold w p (· ∈ f.out) x.1 x.2 a j := by
  induction hr using ReflTransGen.head_induction_on with
  | refl => exact fun h1 h2 => absurd hy (hm _ h1 h2)
  | head hs hrest ih =>
    rename_i x z
    intro h1 h2
    obtain ⟨b, hk, ht⟩ := (succ_take fold w p x.1 x.2 z).1 hs
    obtain ⟨e, hv⟩ := take_valid fold w hk
    by_cases hb : b ∈ f.out
    · exact ⟨b, _, .one hk hb⟩
    · have hin := (h.ins b (by omega) (by omega) hv).resolve_left hb
      rw [ht] at hin
      obtain ⟨a, j, ha⟩ := ih hin.1 hin.2
      exact ⟨a, j, .more hk hb (by rw [ht]; exact ha)⟩

theorem targets_arm (x : Inst) (o : Nat) (h : o ∈ x.targets) : ∃ b, instValid (some x) b ∧ instTarget (some x) b = o := by
  cases x <;> simp [Inst.targets] at h
  · rcases h with rfl | rfl
    · exact ⟨false, trivial, rfl⟩
    · exact ⟨true, trivial, rfl⟩
  all_goals exact ⟨false, rfl, h.symm⟩

theorem program_ok (t : Tree) (h : NoRep t) : (program t).1[0]? = some .fail ∧ Closed (program t).1 ∧ (program t).2 < (program t).1.length ∧
    (program t).1.length = (compile t [.fail]).1.length + 1 ∧ ∀ i, Wins fold (program t).1 w ((program t).2, i) ↔ ∃ j, TFits fold w t i j := by
  obtain ⟨h1, h2, h3⟩ := compile_ext (fold := fold) (w := w) t [.fail] h
  obtain ⟨_, _, h4⟩ := compile_armed t [.fail]
  have e1 : (program t).1 = patch ((compile t [.fail]).1 ++ [.mtch]) (compile t [.fail]).2.out (compile t [.fail]).1.length := rfl
  have e2 : (program t).2 = (compile t [.fail]).2.i := rfl
  generalize compile t [.fail] = c at h1 h2 h3 h4 e1 e2 ⊢
  simp only [List.length_cons, List.length_nil, Nat.zero_add] at h1 h2 h3 h4
  have hout : ∀ a ∈ c.2.out, 1 ≤ a.1 ∧ a.1 < c.1.length := fun a ha => ⟨(h3.out a ha).1, (h3.out a ha).2.1⟩
  generalize hq : (program t).1 = q at e1 ⊢
  have hl : q.length = c.1.length + 1 := by rw [e1, patch_length]; simp
  have hf : Emb fold w q 1 c.1.length c.2 c.1.length (TFits fold w t) := by
    rw [e1]
    exact emb_patch (emb_same h3 fun k _ h8 => getq_append _ _ _ h8)
  have hlast : q[c.1.length]? = some .mtch := by
    rw [e1, patch_other _ _ _ _ fun a ha => by have := hout a ha; omega]
    exact getq_last _ _
  have hz : q[0]? = some .fail := by
    rw [e1, patch_other _ _ _ _ fun a ha => by have := hout a ha; omega, getq_append _ _ _ (by omega), h2 0 (by omega)]
    rfl
  have hval : ∀ k, 1 ≤ k → k < c.1.length → Valid q (k, false) := by
    intro k h5 h6
    rw [e1, patch_valid]
    exact valid_app _ _ _ h6 (h4 k h5 h6)
  refine ⟨hz, ?_, ?_, hl, ?_⟩
  · intro pc x hx o ho
    obtain ⟨b, hb, hb'⟩ := targets_arm x o ho
    have hv : Valid q (pc, b) := by unfold Valid; simp only [hx]; exact hb
    have ht : target q (pc, b) = o := by unfold target; simp only [hx]; exact hb'
    have hpc := (List.getElem?_eq_some_iff.1 hx).1
    by_cases h0 : pc = 0
    · subst h0
      rw [hz] at hx
      cases hx
      cases ho
    · by_cases hn : pc = c.1.length
      · subst hn
        rw [hlast] at hx
        cases hx
        cases ho
      · rcases hf.ins (pc, b) (by simp only; omega) (by simp only; omega) hv with h5 | h5
        · have := (hf.out _ h5).2.2.2
          omega
        · omega
  · have := h3.start
    omega
  · intro i
    rw [e2]
    constructor
    · rintro ⟨y, hy, hm⟩
      obtain ⟨a, j, ha⟩ := reach_run hf (fun k h5 h6 h7 => by
        have := hval k h5 h6
        unfold Valid at this
        simp only [h7] at this
        exact this) hm hy h3.start.1 h3.start.2
      exact ⟨j, (hf.sem i j).1 ⟨a, ha⟩⟩
    · rintro ⟨j, hj⟩
      obtain ⟨a, ha⟩ := (hf.sem i j).2 hj
      have ht := (hf.out a (run_stop ha)).2.2.2
      refine ⟨(target q a, j), run_reach ha, ?_⟩
      simp only [ht]
      exact hlast

end Gofer.Regexp
