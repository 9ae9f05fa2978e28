import Verif.Proof.SyncMapLin
import Mathlib.Data.List.Perm.Basic
/-! # The maps and entries of `sync.Map`: invariants and what one step does to them -/
namespace Gofer.SyncMap

variable {K V : Type} [DecidableEq K] [GoValue V]

/-- The entry that stands for a key. -/
def cur (s : St K V) (k : K) : Option Nat := (s.read.load k).or (s.look k)

/-- The value of a key. -/
def abs (s : St K V) (k : K) : Option (Option V) := (cur s k).bind fun e => (s.heap k e).get

structure SInv (s : St K V) (todo : List (K × Nat)) (v : K → Option (Option V)) : Prop where
  rfresh : ∀ k e, s.read.load k = some e → e < s.fresh
  dfresh : ∀ k e, s.look k = some e → e < s.fresh
  rd : ∀ k e, s.read.load k = some e → (s.look k = some e ∧ s.heap k e ≠ .expunged) ∨ (s.look k = none ∧ s.dirty = none ∧ s.heap k e ≠ .expunged) ∨
    (s.look k = none ∧ s.dirty ≠ none ∧ (s.heap k e = .expunged ∨ (k, e) ∈ todo))
  dt : ∀ k e, s.read.load k = none → s.look k = some e → ∃ w, s.heap k e = .val w
  am : s.amended = true → s.dirty ≠ none ∧ todo = []
  na : s.amended = false → ∀ k, s.read.load k = none → s.look k = none
  ab : ∀ k, abs s k = v k
  td : ∀ p ∈ todo, s.read.load p.1 = some p.2 ∧ s.look p.1 = none
  tn : (todo.map Prod.fst).Nodup
  tx : todo ≠ [] → s.dirty ≠ none

/-- What others may rely on; `hold`: the step is made with the mutex; `own`: the entry taken out before. -/
structure Tr (s s' : St K V) (v v' : K → Option (Option V)) (hold : Bool) (own : Option (K × Nat)) : Prop where
  fr : s.fresh ≤ s'.fresh
  R : ∀ k e, s.read.load k = some e → s'.read.load k = some e ∨ (cur s' k ≠ some e ∧ s'.heap k e = .expunged ∧ v' k = none)
  C : ∀ k e, cur s k = some e → cur s' k = some e ∨ (cur s' k ≠ some e ∧ v' k = none ∧ ∀ w, s'.heap k e = .val w → v k = some w ∨ v' k = some w)
  X : ∀ k e, e < s.fresh → cur s k ≠ some e → cur s' k ≠ some e ∧ (s.heap k e = .expunged → s'.heap k e = .expunged) ∧ (∀ w, s'.heap k e = .val w → s.heap k e = .val w) ∧
    (own ≠ some (k, e) → s'.heap k e = s.heap k e)
  L : hold = false → s'.read = s.read ∧ s'.dirty = s.dirty ∧ s'.amended = s.amended ∧ ∀ k e, s'.heap k e = .expunged ↔ s.heap k e = .expunged

theorem Tr.of_eq {s s' : St K V} {v : K → Option (Option V)} {hold : Bool} {own : Option (K × Nat)} (h1 : s'.read = s.read) (h2 : s'.dirty = s.dirty) (h3 : s'.amended = s.amended)
    (h4 : s'.heap = s.heap) (h5 : s'.fresh = s.fresh) : Tr s s' v v hold own := by
  have hc : ∀ k, cur s' k = cur s k := fun k => by simp [cur, St.look, h1, h2]
  refine ⟨h5.ge, fun k e h => .inl (by rw [h1]; exact h), fun k e h => .inl (by rw [hc]; exact h), fun k e _ h => ?_, fun _ => ⟨h1, h2, h3, fun k e => by rw [h4]⟩⟩
  exact ⟨by rw [hc]; exact h, by rw [h4]; exact id, fun w => by rw [h4]; exact id, fun _ => by rw [h4]⟩

theorem SInv.of_eq {s s' : St K V} {todo : List (K × Nat)} {v : K → Option (Option V)} (h : SInv s todo v) (h1 : s'.read = s.read) (h2 : s'.dirty = s.dirty) (h3 : s'.amended = s.amended)
    (h4 : s'.heap = s.heap) (h5 : s'.fresh = s.fresh) : SInv s' todo v := by
  have hl : ∀ k, s'.look k = s.look k := fun k => by simp [St.look, h2]
  have hc : ∀ k, cur s' k = cur s k := fun k => by simp [cur, hl, h1]
  refine ⟨?_, ?_, ?_, ?_, ?_, ?_, ?_, ?_, h.tn, ?_⟩
  · rw [h1, h5]; exact h.rfresh
  · simp only [hl, h5]; exact h.dfresh
  · simp only [h1, hl, h2, h4]; exact h.rd
  · simp only [h1, hl, h4]; exact h.dt
  · rw [h2, h3]; exact h.am
  · simp only [h1, hl, h3]; exact h.na
  · intro k; rw [← h.ab k]; simp [abs, hc, h4]
  · simp only [h1, hl]; exact h.td
  · rw [h2]; exact h.tx

theorem cur_r {s : St K V} {k : K} {e : Nat} (h : s.read.load k = some e) : cur s k = some e := by simp [cur, h]

theorem cur_d {s : St K V} {k : K} (h : s.read.load k = none) : cur s k = s.look k := by simp [cur, h]

theorem cur_iff {s : St K V} {k : K} {e : Nat} : cur s k = some e ↔ s.read.load k = some e ∨ (s.read.load k = none ∧ s.look k = some e) := by
  cases h : s.read.load k with
  | none => simp [cur, h]
  | some e' => simp [cur, h]

theorem SInv.cfresh {s : St K V} {todo : List (K × Nat)} {v : K → Option (Option V)} (h : SInv s todo v) {k : K} {e : Nat} (hc : cur s k = some e) : e < s.fresh := by
  rcases cur_iff.1 hc with hc | ⟨_, hc⟩
  · exact h.rfresh k e hc
  · exact h.dfresh k e hc

theorem SInv.val {s : St K V} {todo : List (K × Nat)} {v : K → Option (Option V)} (h : SInv s todo v) {k : K} {e : Nat} (hc : cur s k = some e) : v k = (s.heap k e).get := by
  rw [← h.ab k]; simp [abs, hc]

theorem SInv.val_none {s : St K V} {todo : List (K × Nat)} {v : K → Option (Option V)} (h : SInv s todo v) {k : K} (hc : cur s k = none) : v k = none := by
  rw [← h.ab k]; simp [abs, hc]

/-- An expunged entry is in `read` or nowhere. -/
theorem SInv.exp_r {s : St K V} {todo : List (K × Nat)} {v : K → Option (Option V)} (h : SInv s todo v) {k : K} {e : Nat} (he : s.heap k e = .expunged) (hc : cur s k = some e) :
    s.read.load k = some e := by
  rcases cur_iff.1 hc with hc | ⟨h1, h2⟩
  · exact hc
  · obtain ⟨w, hw⟩ := h.dt k e h1 h2
    rw [he] at hw; cases hw

theorem Tr.trans {s s' s'' : St K V} {todo : List (K × Nat)} {v v' : K → Option (Option V)} {own : Option (K × Nat)} (hs : SInv s todo v) (h1 : Tr s s' v v' true own)
    (h2 : Tr s' s'' v' v' true own) : Tr s s'' v v' true own := by
  refine ⟨h1.fr.trans h2.fr, ?_, ?_, ?_, nofun⟩
  · intro k e h
    rcases h1.R k e h with h | ⟨a, b, c⟩
    · exact h2.R k e h
    · obtain ⟨x1, x2, _, _⟩ := h2.X k e ((hs.rfresh k e h).trans_le h1.fr) a
      exact .inr ⟨x1, x2 b, c⟩
  · intro k e h
    rcases h1.C k e h with h | ⟨a, b, c⟩
    · rcases h2.C k e h with h | ⟨a, b, c⟩
      · exact .inl h
      · refine .inr ⟨a, b, fun w hw => ?_⟩
        have := c w hw
        exact .inr (this.elim id id)
    · obtain ⟨x1, _, x2, _⟩ := h2.X k e ((hs.cfresh h).trans_le h1.fr) a
      exact .inr ⟨x1, b, fun w hw => c w (x2 w hw)⟩
  · intro k e hf hc
    obtain ⟨a1, a2, a3, a4⟩ := h1.X k e hf hc
    obtain ⟨b1, b2, b3, b4⟩ := h2.X k e (hf.trans_le h1.fr) a1
    exact ⟨b1, fun h => b2 (a2 h), fun w h => a3 w (b3 w h), fun h => (b4 h).trans (a4 h)⟩

theorem look_some {s : St K V} {d : AMap K Nat} (h : s.dirty = some d) (k : K) : s.look k = d.load k := by simp [St.look, h]
theorem look_none {s : St K V} (h : s.dirty = none) (k : K) : s.look k = none := by simp [St.look, h]

theorem promote_ok {s : St K V} {todo : List (K × Nat)} {v : K → Option (Option V)} (h : SInv s todo v) (ha : s.amended = true) :
    SInv (promote s) [] v ∧ Tr s (promote s) v v true none := by
  obtain ⟨hd, ht⟩ := h.am ha
  obtain ⟨d, hd⟩ := Option.ne_none_iff_exists'.1 hd
  subst ht
  have hread : ∀ k, (promote s).read.load k = s.look k := fun k => by simp [promote, hd, look_some hd]
  have hlook : ∀ k, (promote s).look k = none := fun k => rfl
  have hheap : (promote s).heap = s.heap := rfl
  have hcur : ∀ k, cur (promote s) k = s.look k := fun k => by simp [cur, hread, hlook]
  have hrd : ∀ k e, s.read.load k = some e → (s.look k = some e ∧ s.heap k e ≠ .expunged) ∨ (s.look k = none ∧ s.heap k e = .expunged) := by
    intro k e hk
    rcases h.rd k e hk with h1 | ⟨_, h1, _⟩ | ⟨h1, _, h2⟩
    · exact .inl h1
    · rw [hd] at h1; cases h1
    · exact .inr ⟨h1, by simpa using h2⟩
  have habs : ∀ k, abs (promote s) k = abs s k := by
    intro k
    unfold abs
    rw [hcur]
    cases hk : s.read.load k with
    | none => rw [cur_d hk]; rfl
    | some e =>
      rw [cur_r hk]
      rcases hrd k e hk with ⟨h1, _⟩ | ⟨h1, h2⟩
      · rw [h1]; rfl
      · rw [h1]; simp [h2, Ptr.get]
  refine ⟨⟨?_, nofun, ?_, ?_, nofun, fun _ _ _ => rfl, ?_, nofun, by simp, by simp⟩, le_rfl, ?_, ?_, ?_, nofun⟩
  · intro k e hk; rw [hread] at hk; exact h.dfresh k e hk
  · intro k e hk
    rw [hread] at hk
    refine .inr (.inl ⟨rfl, rfl, ?_⟩)
    show s.heap k e ≠ _
    cases hr : s.read.load k with
    | none => obtain ⟨w, hw⟩ := h.dt k e hr hk; rw [hw]; nofun
    | some e' =>
      rcases hrd k e' hr with ⟨h1, h2⟩ | ⟨h1, _⟩
      · rw [hk] at h1; cases h1; exact h2
      · rw [hk] at h1; cases h1
  · intro k e _ hk; cases hk
  · intro k; rw [habs]; exact h.ab k
  · intro k e hk
    rw [hread, hcur]
    rcases hrd k e hk with ⟨h1, _⟩ | ⟨h1, h2⟩
    · exact .inl h1
    · refine .inr ⟨by rw [h1]; nofun, h2, ?_⟩
      rw [h.val (cur_r hk), h2]; rfl
  · intro k e hk
    rw [hcur]
    rcases cur_iff.1 hk with hr | ⟨_, hl⟩
    · rcases hrd k e hr with ⟨h1, _⟩ | ⟨h1, h2⟩
      · exact .inl h1
      · refine .inr ⟨by rw [h1]; nofun, by rw [h.val hk, h2]; rfl, fun w hw => ?_⟩
        rw [hheap, h2] at hw; cases hw
    · exact .inl hl
  · intro k e _ hk
    refine ⟨?_, fun h => h, fun w h => h, fun _ => rfl⟩
    rw [hcur]
    intro hl
    cases hr : s.read.load k with
    | none => exact hk (by rw [cur_d hr]; exact hl)
    | some e' =>
      rcases hrd k e' hr with ⟨h1, _⟩ | ⟨h1, _⟩
      · rw [hl] at h1; cases h1; exact hk (cur_r hr)
      · rw [hl] at h1; cases h1

theorem miss_ok {s : St K V} {todo : List (K × Nat)} {v : K → Option (Option V)} (h : SInv s todo v) (ha : s.amended = true) :
    SInv (miss s) [] v ∧ Tr s (miss s) v v true none := by
  unfold miss
  split
  · have := (h.am ha).2
    subst this
    exact ⟨h.of_eq rfl rfl rfl rfl rfl, .of_eq rfl rfl rfl rfl rfl⟩
  · exact promote_ok h ha

/-- `delete(m.dirty, k)` of a key that is not in `read`. -/
theorem drop_ok {s : St K V} {todo : List (K × Nat)} {v : K → Option (Option V)} (h : SInv s todo v) (ha : s.amended = true) {k : K} (hk : s.read.load k = none) :
    SInv { s with dirty := s.dirty.map fun d => d.delete k } [] (upd v k none) ∧ Tr s { s with dirty := s.dirty.map fun d => d.delete k } v (upd v k none) true none := by
  obtain ⟨hd, ht⟩ := h.am ha
  obtain ⟨d, hd⟩ := Option.ne_none_iff_exists'.1 hd
  subst ht
  generalize hs' : ({ s with dirty := s.dirty.map fun d => d.delete k } : St K V) = s'
  have hread : s'.read = s.read := by rw [← hs']
  have hheap : s'.heap = s.heap := by rw [← hs']
  have hfr : s'.fresh = s.fresh := by rw [← hs']
  have ham : s'.amended = true := by rw [← hs']; exact ha
  have hdn : s'.dirty ≠ none := by rw [← hs']; simp [hd]
  have hlook : ∀ x, s'.look x = if x = k then none else s.look x := by
    intro x
    rw [← hs']
    simp only [St.look, hd, Option.map_some, Option.bind_some]
    rw [AMap.load_delete]
  have hcur : ∀ x, cur s' x = if x = k then none else cur s x := by
    intro x
    unfold cur
    rw [hread, hlook]
    split
    · rename_i e; rw [e, hk]; rfl
    · rfl
  refine ⟨⟨?_, ?_, ?_, ?_, fun _ => ⟨hdn, rfl⟩, ?_, ?_, nofun, by simp, by simp⟩, hfr.ge, ?_, ?_, ?_, nofun⟩
  · rw [hread, hfr]; exact h.rfresh
  · intro x e hx
    rw [hlook] at hx
    rw [hfr]
    split at hx
    · cases hx
    · exact h.dfresh x e hx
  · intro x e hx
    rw [hread] at hx
    rw [hlook, hheap]
    have hxk : x ≠ k := by rintro rfl; rw [hk] at hx; cases hx
    rw [if_neg hxk]
    rcases h.rd x e hx with h1 | ⟨_, h1, _⟩ | ⟨h1, _, h2⟩
    · exact .inl h1
    · rw [hd] at h1; cases h1
    · exact .inr (.inr ⟨h1, hdn, h2⟩)
  · intro x e hx hl
    rw [hread] at hx
    rw [hlook] at hl
    rw [hheap]
    split at hl
    · cases hl
    · exact h.dt x e hx hl
  · intro hn; rw [ham] at hn; cases hn
  · intro x
    unfold abs upd
    rw [hcur, hheap]
    split
    · rfl
    · exact h.ab x
  · intro x e hx; exact .inl (by rw [hread]; exact hx)
  · intro x e hx
    rw [hcur, hheap]
    by_cases hxk : x = k
    · subst hxk
      refine .inr ⟨by simp, by simp [upd], fun w hw => .inl ?_⟩
      rw [h.val hx, hw]; rfl
    · rw [if_neg hxk]; exact .inl hx
  · intro x e _ hx
    rw [hcur, hheap]
    refine ⟨?_, id, fun w => id, fun _ => rfl⟩
    split
    · nofun
    · exact hx

/-- The start of `dirtyLocked`. -/
theorem begin_ok {s : St K V} {todo : List (K × Nat)} {v : K → Option (Option V)} (h : SInv s todo v) (ha : s.amended = false) (hd : s.dirty = none) :
    SInv { s with dirty := some AMap.empty } s.read.entries v ∧ Tr s { s with dirty := some AMap.empty } v v true none := by
  have hl0 : ∀ x, s.look x = none := look_none hd
  generalize hs' : ({ s with dirty := some AMap.empty } : St K V) = s'
  have hread : s'.read = s.read := by rw [← hs']
  have hheap : s'.heap = s.heap := by rw [← hs']
  have hfr : s'.fresh = s.fresh := by rw [← hs']
  have ham : s'.amended = false := by rw [← hs']; exact ha
  have hdn : s'.dirty ≠ none := by rw [← hs']; simp
  have hlook : ∀ x, s'.look x = none := by intro x; rw [← hs']; rfl
  have hcur : ∀ x, cur s' x = cur s x := by intro x; unfold cur; rw [hread, hlook, hl0]
  refine ⟨⟨?_, ?_, ?_, ?_, ?_, fun _ x _ => hlook x, ?_, ?_, s.read.nodup, fun _ => hdn⟩, hfr.ge, ?_, ?_, ?_, nofun⟩
  · rw [hread, hfr]; exact h.rfresh
  · intro x e hx; rw [hlook] at hx; cases hx
  · intro x e hx
    rw [hread] at hx
    exact .inr (.inr ⟨hlook x, hdn, .inr ((AMap.mem_entries_iff _ _ _).2 hx)⟩)
  · intro x e _ hx; rw [hlook] at hx; cases hx
  · intro hn; rw [ham] at hn; cases hn
  · intro x; unfold abs; rw [hcur, hheap]; exact h.ab x
  · intro p hp; rw [hread]; exact ⟨(AMap.mem_entries_iff _ _ _).1 hp, hlook _⟩
  · intro x e hx; exact .inl (by rw [hread]; exact hx)
  · intro x e hx; exact .inl (by rw [hcur]; exact hx)
  · intro x e _ hx; rw [hcur, hheap]; exact ⟨hx, id, fun w => id, fun _ => rfl⟩

/-- `unexpungeLocked` of an expunged entry. -/
theorem unexp_ok {s : St K V} {v : K → Option (Option V)} (h : SInv s [] v) {k : K} {e : Nat} (hk : s.read.load k = some e) (he : s.heap k e = .expunged) :
    SInv { setP s k e .nil with dirty := s.dirty.map fun d => d.store k e } [] v ∧ Tr s { setP s k e .nil with dirty := s.dirty.map fun d => d.store k e } v v true none := by
  have hdl : s.look k = none ∧ s.dirty ≠ none := by
    rcases h.rd k e hk with ⟨_, h1⟩ | ⟨_, _, h1⟩ | ⟨h1, h2, _⟩
    · exact absurd he h1
    · exact absurd he h1
    · exact ⟨h1, h2⟩
  obtain ⟨d, hd⟩ := Option.ne_none_iff_exists'.1 hdl.2
  generalize hs' : ({ setP s k e .nil with dirty := s.dirty.map fun d => d.store k e } : St K V) = s'
  have hread : s'.read = s.read := by rw [← hs']; rfl
  have hheap : ∀ x y, s'.heap x y = if x = k ∧ y = e then .nil else s.heap x y := by intro x y; rw [← hs']; rfl
  have hfr : s'.fresh = s.fresh := by rw [← hs']; rfl
  have ham : s'.amended = s.amended := by rw [← hs']; rfl
  have hdn : s'.dirty ≠ none := by rw [← hs']; simp [hd]
  have hlook : ∀ x, s'.look x = if x = k then some e else s.look x := by
    intro x
    rw [← hs']
    simp only [St.look, hd, Option.map_some, Option.bind_some]
    rw [AMap.load_store]
  have hcur : ∀ x, cur s' x = cur s x := by
    intro x
    unfold cur
    rw [hread, hlook]
    split
    · rename_i e; rw [e, hk]; rfl
    · rfl
  refine ⟨⟨?_, ?_, ?_, ?_, ?_, ?_, ?_, nofun, by simp, by simp⟩, hfr.ge, ?_, ?_, ?_, nofun⟩
  · rw [hread, hfr]; exact h.rfresh
  · intro x y hx
    rw [hlook] at hx
    rw [hfr]
    split at hx
    · cases hx; exact h.rfresh k e hk
    · exact h.dfresh x y hx
  · intro x y hx
    rw [hread] at hx
    rw [hlook, hheap]
    by_cases hxk : x = k
    · subst hxk
      rw [hk] at hx; cases hx
      exact .inl ⟨by simp, by simp⟩
    · rw [if_neg hxk, if_neg (fun hc => hxk hc.1)]
      rcases h.rd x y hx with h1 | ⟨_, h1, _⟩ | ⟨h1, _, h2⟩
      · exact .inl h1
      · exact absurd h1 hdl.2
      · exact .inr (.inr ⟨h1, hdn, h2⟩)
  · intro x y hx hl
    rw [hread] at hx
    have hxk : x ≠ k := by rintro rfl; rw [hk] at hx; cases hx
    rw [hlook, if_neg hxk] at hl
    rw [hheap, if_neg (fun hc => hxk hc.1)]
    exact h.dt x y hx hl
  · intro _; exact ⟨hdn, rfl⟩
  · intro hn x hx
    rw [ham] at hn
    rw [hread] at hx
    have hxk : x ≠ k := by rintro rfl; rw [hk] at hx; cases hx
    rw [hlook, if_neg hxk]
    exact h.na hn x hx
  · intro x
    rw [← h.ab x]
    unfold abs
    rw [hcur]
    cases hc : cur s x with
    | none => rfl
    | some y =>
      simp only [Option.bind_some, hheap]
      split
      · rename_i hxy; rw [hxy.1, hxy.2, he]; rfl
      · rfl
  · intro x y hx; exact .inl (by rw [hread]; exact hx)
  · intro x y hx; exact .inl (by rw [hcur]; exact hx)
  · intro x y _ hx
    have : ¬ (x = k ∧ y = e) := by rintro ⟨rfl, rfl⟩; exact hx (cur_r hk)
    rw [hcur, hheap, if_neg this]
    exact ⟨hx, id, fun w => id, fun _ => rfl⟩

/-- A pointer of a current entry that is not expunged is changed to `p`. -/
theorem set_ok {s : St K V} {todo : List (K × Nat)} {v : K → Option (Option V)} (h : SInv s todo v) {k : K} {e : Nat} (hk : cur s k = some e) (he : s.heap k e ≠ .expunged)
    {p : Ptr (Option V)} (hp : p ≠ .expunged) (hr : s.read.load k = some e ∨ ∃ w, p = .val w) (hold : Bool) :
    SInv (setP s k e p) todo (upd v k p.get) ∧ Tr s (setP s k e p) v (upd v k p.get) hold none := by
  generalize hs' : setP s k e p = s'
  have hread : s'.read = s.read := by rw [← hs']; rfl
  have hheap : ∀ x y, s'.heap x y = if x = k ∧ y = e then p else s.heap x y := by intro x y; rw [← hs']; rfl
  have hfr : s'.fresh = s.fresh := by rw [← hs']; rfl
  have ham : s'.amended = s.amended := by rw [← hs']; rfl
  have hdi : s'.dirty = s.dirty := by rw [← hs']; rfl
  have hlook : ∀ x, s'.look x = s.look x := by intro x; simp [St.look, hdi]
  have hcur : ∀ x, cur s' x = cur s x := by intro x; simp [cur, hlook, hread]
  have hexp : ∀ x y, s'.heap x y = .expunged ↔ s.heap x y = .expunged := by
    intro x y
    rw [hheap]
    split
    · rename_i hxy; rw [hxy.1, hxy.2]; exact ⟨fun h => absurd h hp, fun h => absurd h he⟩
    · rfl
  refine ⟨⟨?_, ?_, ?_, ?_, ?_, ?_, ?_, ?_, h.tn, ?_⟩, hfr.ge, ?_, ?_, ?_, ?_⟩
  · rw [hread, hfr]; exact h.rfresh
  · simp only [hlook, hfr]; exact h.dfresh
  · simp only [hread, hlook, hdi, hexp, ne_eq]; exact h.rd
  · intro x y hx hl
    rw [hread] at hx
    rw [hlook] at hl
    rw [hheap]
    split
    · rename_i hxy
      obtain ⟨rfl, rfl⟩ := hxy
      rcases hr with hr | hr
      · rw [hx] at hr; cases hr
      · exact hr
    · exact h.dt x y hx hl
  · rw [ham, hdi]; exact h.am
  · simp only [ham, hread, hlook]; exact h.na
  · intro x
    unfold abs upd
    rw [hcur]
    by_cases hx : x = k
    · subst hx
      rw [hk]
      simp [hheap]
    · rw [if_neg hx, ← h.ab x]
      unfold abs
      congr 1
      funext y
      rw [hheap, if_neg fun hc => hx hc.1]
  · simp only [hread, hlook]; exact h.td
  · rw [hdi]; exact h.tx
  · intro x y hx; exact .inl (by rw [hread]; exact hx)
  · intro x y hx; exact .inl (by rw [hcur]; exact hx)
  · intro x y _ hx
    have : ¬ (x = k ∧ y = e) := by rintro ⟨rfl, rfl⟩; exact hx hk
    rw [hcur, hheap, if_neg this]
    exact ⟨hx, id, fun w => id, fun _ => rfl⟩
  · intro _; exact ⟨hread, hdi, ham, hexp⟩

/-- The pointer of an entry that was taken out is set to nil. -/
theorem clear_ok {s : St K V} {todo : List (K × Nat)} {v : K → Option (Option V)} (h : SInv s todo v) {k : K} {e : Nat} (hk : cur s k ≠ some e) {w : Option V} (he : s.heap k e = .val w)
    (hold : Bool) : SInv (setP s k e .nil) todo v ∧ Tr s (setP s k e .nil) v v hold (some (k, e)) := by
  generalize hs' : setP s k e .nil = s'
  have hread : s'.read = s.read := by rw [← hs']; rfl
  have hheap : ∀ x y, s'.heap x y = if x = k ∧ y = e then .nil else s.heap x y := by intro x y; rw [← hs']; rfl
  have hfr : s'.fresh = s.fresh := by rw [← hs']; rfl
  have ham : s'.amended = s.amended := by rw [← hs']; rfl
  have hdi : s'.dirty = s.dirty := by rw [← hs']; rfl
  have hlook : ∀ x, s'.look x = s.look x := by intro x; simp [St.look, hdi]
  have hcur : ∀ x, cur s' x = cur s x := by intro x; simp [cur, hlook, hread]
  have hexp : ∀ x y, s'.heap x y = .expunged ↔ s.heap x y = .expunged := by
    intro x y
    rw [hheap]
    split
    · rename_i hxy; rw [hxy.1, hxy.2, he]; exact ⟨nofun, nofun⟩
    · rfl
  have hsame : ∀ x y, cur s x = some y → s'.heap x y = s.heap x y := by
    intro x y hx
    rw [hheap, if_neg]
    rintro ⟨rfl, rfl⟩
    exact hk hx
  refine ⟨⟨?_, ?_, ?_, ?_, ?_, ?_, ?_, ?_, h.tn, ?_⟩, hfr.ge, ?_, ?_, ?_, ?_⟩
  · rw [hread, hfr]; exact h.rfresh
  · simp only [hlook, hfr]; exact h.dfresh
  · simp only [hread, hlook, hdi, hexp, ne_eq]; exact h.rd
  · intro x y hx hl
    rw [hread] at hx
    rw [hlook] at hl
    rw [hsame x y (by rw [cur_d hx]; exact hl)]
    exact h.dt x y hx hl
  · rw [ham, hdi]; exact h.am
  · simp only [ham, hread, hlook]; exact h.na
  · intro x
    rw [← h.ab x]
    unfold abs
    rw [hcur]
    cases hc : cur s x with
    | none => rfl
    | some y => simp only [Option.bind_some]; rw [hsame x y hc]
  · simp only [hread, hlook]; exact h.td
  · rw [hdi]; exact h.tx
  · intro x y hx; exact .inl (by rw [hread]; exact hx)
  · intro x y hx; exact .inl (by rw [hcur]; exact hx)
  · intro x y _ hx
    rw [hcur]
    refine ⟨hx, (hexp x y).2, ?_, ?_⟩
    · intro w'
      rw [hheap]
      split
      · nofun
      · exact id
    · intro hn
      rw [hheap, if_neg]
      rintro ⟨rfl, rfl⟩
      exact hn rfl
  · intro _; exact ⟨hread, hdi, ham, hexp⟩

/-- The new entry. -/
theorem pub_ok {s : St K V} {v : K → Option (Option V)} (h : SInv s [] v) (hd : s.dirty ≠ none) {k : K} (hk : s.read.load k = none) (hl : s.look k = none) (w : Option V) :
    SInv { setP s k s.fresh (.val w) with amended := true, dirty := some ((s.dirty.getD AMap.empty).store k s.fresh), fresh := s.fresh + 1 } [] (upd v k (some w)) ∧
    Tr s { setP s k s.fresh (.val w) with amended := true, dirty := some ((s.dirty.getD AMap.empty).store k s.fresh), fresh := s.fresh + 1 } v (upd v k (some w)) true none := by
  obtain ⟨d, hd⟩ := Option.ne_none_iff_exists'.1 hd
  generalize hs' : ({ setP s k s.fresh (.val w) with amended := true, dirty := some ((s.dirty.getD AMap.empty).store k s.fresh), fresh := s.fresh + 1 } : St K V) = s'
  have hread : s'.read = s.read := by rw [← hs']; rfl
  have hheap : ∀ x y, s'.heap x y = if x = k ∧ y = s.fresh then .val w else s.heap x y := by intro x y; rw [← hs']; rfl
  have hfr : s'.fresh = s.fresh + 1 := by rw [← hs']
  have ham : s'.amended = true := by rw [← hs']
  have hdn : s'.dirty ≠ none := by rw [← hs']; simp
  have hlook : ∀ x, s'.look x = if x = k then some s.fresh else s.look x := by
    intro x
    rw [← hs']
    simp only [St.look, hd, Option.getD_some, Option.bind_some]
    rw [AMap.load_store]
  have hcur : ∀ x, cur s' x = if x = k then some s.fresh else cur s x := by
    intro x
    unfold cur
    rw [hread, hlook]
    split
    · rename_i e; rw [e, hk]; rfl
    · rfl
  have hck : cur s k = none := by rw [cur_d hk]; exact hl
  refine ⟨⟨?_, ?_, ?_, ?_, fun _ => ⟨hdn, rfl⟩, ?_, ?_, nofun, by simp, by simp⟩, by omega, ?_, ?_, ?_, nofun⟩
  · intro x y hx
    rw [hread] at hx
    have := h.rfresh x y hx
    omega
  · intro x y hx
    rw [hlook] at hx
    split at hx
    · cases hx; omega
    · have := h.dfresh x y hx; omega
  · intro x y hx
    rw [hread] at hx
    have hxk : x ≠ k := by rintro rfl; rw [hk] at hx; cases hx
    rw [hlook, hheap, if_neg hxk, if_neg (fun hc => hxk hc.1)]
    rcases h.rd x y hx with h1 | ⟨_, h1, _⟩ | ⟨h1, _, h2⟩
    · exact .inl h1
    · rw [hd] at h1; cases h1
    · exact .inr (.inr ⟨h1, hdn, h2⟩)
  · intro x y hx hx'
    rw [hread] at hx
    rw [hlook] at hx'
    rw [hheap]
    split at hx'
    · cases hx'
      rename_i e
      exact ⟨w, by simp [e]⟩
    · rename_i hxk
      rw [if_neg fun hc => hxk hc.1]
      exact h.dt x y hx hx'
  · intro hn; rw [ham] at hn; cases hn
  · intro x
    unfold abs upd
    rw [hcur]
    by_cases hx : x = k
    · subst hx
      simp [hheap, Ptr.get]
    · rw [if_neg hx, if_neg hx, ← h.ab x]
      unfold abs
      congr 1
      funext y
      rw [hheap, if_neg fun hc => hx hc.1]
  · intro x y hx; exact .inl (by rw [hread]; exact hx)
  · intro x y hx
    have hxk : x ≠ k := by rintro rfl; rw [hck] at hx; cases hx
    exact .inl (by rw [hcur, if_neg hxk]; exact hx)
  · intro x y hf hx
    have : ¬ (x = k ∧ y = s.fresh) := fun hc => by omega
    rw [hcur, hheap, if_neg this]
    refine ⟨?_, id, fun w => id, fun _ => rfl⟩
    split
    · intro hc; cases hc; omega
    · exact hx

theorem erase_sub {A : Type} {l : List A} {i : Nat} {x : A} (h : x ∈ l.eraseIdx i) : x ∈ l := List.mem_of_mem_eraseIdx h

/-- What is left after one entry. -/
theorem todo_erase {todo : List (K × Nat)} {i : Nat} {k : K} {e : Nat} (hi : todo[i]? = some (k, e)) (hn : (todo.map Prod.fst).Nodup) :
    (∀ p, p ∈ todo ↔ p = (k, e) ∨ p ∈ todo.eraseIdx i) ∧ (∀ p ∈ todo.eraseIdx i, p.1 ≠ k) ∧ ((todo.eraseIdx i).map Prod.fst).Nodup := by
  obtain ⟨hlt, he⟩ := List.getElem?_eq_some_iff.1 hi
  have hperm : todo.Perm ((k, e) :: todo.eraseIdx i) := by
    rw [← he]
    exact (List.getElem_cons_eraseIdx_perm hlt).symm
  have hn' := (hperm.map Prod.fst).nodup_iff.1 hn
  rw [List.map_cons, List.nodup_cons] at hn'
  refine ⟨fun p => by rw [hperm.mem_iff, List.mem_cons], fun p hp hk => hn'.1 ?_, hn'.2⟩
  rw [← hk]
  exact List.mem_map.2 ⟨p, hp, rfl⟩

/-- One round of `dirtyLocked`. -/
theorem expunge_ok {s : St K V} {todo : List (K × Nat)} {v : K → Option (Option V)} (h : SInv s todo v) {i : Nat} {k : K} {e : Nat} (hi : todo[i]? = some (k, e)) :
    (s.heap k e = .nil → SInv (setP s k e .expunged) (todo.eraseIdx i) v ∧ Tr s (setP s k e .expunged) v v true none) ∧
    (s.heap k e = .expunged → SInv s (todo.eraseIdx i) v) ∧
    (∀ w, s.heap k e = .val w → SInv { s with dirty := s.dirty.map fun d => d.store k e } (todo.eraseIdx i) v ∧ Tr s { s with dirty := s.dirty.map fun d => d.store k e } v v true none) := by
  obtain ⟨t1, t2, t3⟩ := todo_erase hi h.tn
  have hmem : (k, e) ∈ todo := List.mem_of_getElem? hi
  have hne : todo ≠ [] := by rintro rfl; cases hmem
  obtain ⟨hk, hl⟩ := h.td _ hmem
  simp only at hk hl
  have hdn := h.tx hne
  have hna : s.amended = false := by
    cases ha : s.amended with
    | false => rfl
    | true => exact absurd (h.am ha).2 hne
  obtain ⟨d, hd⟩ := Option.ne_none_iff_exists'.1 hdn
  refine ⟨fun he => ?_, fun he => ?_, fun w he => ?_⟩
  · generalize hs' : setP s k e .expunged = s'
    have hread : s'.read = s.read := by rw [← hs']; rfl
    have hheap : ∀ x y, s'.heap x y = if x = k ∧ y = e then .expunged else s.heap x y := by intro x y; rw [← hs']; rfl
    have hfr : s'.fresh = s.fresh := by rw [← hs']; rfl
    have ham : s'.amended = s.amended := by rw [← hs']; rfl
    have hdi : s'.dirty = s.dirty := by rw [← hs']; rfl
    have hlook : ∀ x, s'.look x = s.look x := by intro x; simp [St.look, hdi]
    have hcur : ∀ x, cur s' x = cur s x := by intro x; simp [cur, hlook, hread]
    refine ⟨⟨?_, ?_, ?_, ?_, ?_, ?_, ?_, ?_, t3, ?_⟩, hfr.ge, ?_, ?_, ?_, nofun⟩
    · rw [hread, hfr]; exact h.rfresh
    · simp only [hlook, hfr]; exact h.dfresh
    · intro x y hx
      rw [hread] at hx
      rw [hlook, hheap, hdi]
      by_cases hxk : x = k
      · subst hxk
        rw [hk] at hx; cases hx
        exact .inr (.inr ⟨hl, hdn, .inl (by simp)⟩)
      · rw [if_neg (fun hc => hxk hc.1)]
        rcases h.rd x y hx with h1 | h1 | ⟨h1, h2, h3⟩
        · exact .inl h1
        · exact .inr (.inl h1)
        · refine .inr (.inr ⟨h1, h2, h3.imp id fun hm => ?_⟩)
          rcases (t1 _).1 hm with hm | hm
          · cases hm; exact absurd rfl hxk
          · exact hm
    · intro x y hx hl'
      rw [hread] at hx
      rw [hlook] at hl'
      rw [h.na hna x hx] at hl'
      cases hl'
    · intro ha; rw [ham, hna] at ha; cases ha
    · simp only [ham, hread, hlook]; exact h.na
    · intro x
      rw [← h.ab x]
      unfold abs
      rw [hcur]
      cases hc : cur s x with
      | none => rfl
      | some y =>
        simp only [Option.bind_some, hheap]
        split
        · rename_i hxy; rw [hxy.1, hxy.2, he]; rfl
        · rfl
    · intro p hp; simp only [hread, hlook]; exact h.td p (erase_sub hp)
    · rw [hdi]; exact fun _ => hdn
    · intro x y hx; exact .inl (by rw [hread]; exact hx)
    · intro x y hx; exact .inl (by rw [hcur]; exact hx)
    · intro x y _ hx
      have : ¬ (x = k ∧ y = e) := by rintro ⟨rfl, rfl⟩; exact hx (cur_r hk)
      rw [hcur, hheap, if_neg this]
      exact ⟨hx, id, fun w => id, fun _ => rfl⟩
  · refine ⟨h.rfresh, h.dfresh, ?_, h.dt, ?_, h.na, h.ab, fun p hp => h.td p (erase_sub hp), t3, fun _ => hdn⟩
    · intro x y hx
      rcases h.rd x y hx with h1 | h1 | ⟨h1, h2, h3⟩
      · exact .inl h1
      · exact .inr (.inl h1)
      · refine .inr (.inr ⟨h1, h2, ?_⟩)
        rcases h3 with h3 | hm
        · exact .inl h3
        · rcases (t1 _).1 hm with hm | hm
          · cases hm; exact .inl he
          · exact .inr hm
    · intro ha; rw [hna] at ha; cases ha
  · generalize hs' : ({ s with dirty := s.dirty.map fun d => d.store k e } : St K V) = s'
    have hread : s'.read = s.read := by rw [← hs']
    have hheap : s'.heap = s.heap := by rw [← hs']
    have hfr : s'.fresh = s.fresh := by rw [← hs']
    have ham : s'.amended = s.amended := by rw [← hs']
    have hdn' : s'.dirty ≠ none := by rw [← hs']; simp [hd]
    have hlook : ∀ x, s'.look x = if x = k then some e else s.look x := by
      intro x
      rw [← hs']
      simp only [St.look, hd, Option.map_some, Option.bind_some]
      rw [AMap.load_store]
    have hcur : ∀ x, cur s' x = cur s x := by
      intro x
      unfold cur
      rw [hread, hlook]
      split
      · rename_i e; rw [e, hk]; rfl
      · rfl
    refine ⟨⟨?_, ?_, ?_, ?_, ?_, ?_, ?_, ?_, t3, fun _ => hdn'⟩, hfr.ge, ?_, ?_, ?_, nofun⟩
    · rw [hread, hfr]; exact h.rfresh
    · intro x y hx
      rw [hlook] at hx
      rw [hfr]
      split at hx
      · cases hx; exact h.rfresh k e hk
      · exact h.dfresh x y hx
    · intro x y hx
      rw [hread] at hx
      rw [hlook, hheap]
      by_cases hxk : x = k
      · subst hxk
        rw [hk] at hx; cases hx
        exact .inl ⟨by simp, by rw [he]; nofun⟩
      · rw [if_neg hxk]
        rcases h.rd x y hx with h1 | ⟨_, h1, _⟩ | ⟨h1, h2, h3⟩
        · exact .inl h1
        · exact absurd h1 hdn
        · refine .inr (.inr ⟨h1, hdn', h3.imp id fun hm => ?_⟩)
          rcases (t1 _).1 hm with hm | hm
          · cases hm; exact absurd rfl hxk
          · exact hm
    · intro x y hx hl'
      rw [hread] at hx
      have hxk : x ≠ k := by rintro rfl; rw [hk] at hx; cases hx
      rw [hlook, if_neg hxk, h.na hna x hx] at hl'
      cases hl'
    · intro ha; rw [ham, hna] at ha; cases ha
    · intro _ x hx
      rw [hread] at hx
      have hxk : x ≠ k := by rintro rfl; rw [hk] at hx; cases hx
      rw [hlook, if_neg hxk]
      exact h.na hna x hx
    · intro x; rw [← h.ab x]; unfold abs; rw [hcur, hheap]
    · intro p hp
      rw [hread, hlook, if_neg (t2 p hp)]
      exact h.td p (erase_sub hp)
    · intro x y hx; exact .inl (by rw [hread]; exact hx)
    · intro x y hx; exact .inl (by rw [hcur]; exact hx)
    · intro x y _ hx
      rw [hcur, hheap]
      exact ⟨hx, id, fun w => id, fun _ => rfl⟩

end Gofer.SyncMap
