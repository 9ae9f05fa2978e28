import Verif.Proof.GoPoolOpen
import Mathlib.Data.List.Nodup
import Mathlib.Data.List.Perm.Subperm

/-! # `GoPool`: how many workers there are, and states in which nothing moves -/
namespace Gofer.GoPool
open Gofer.Count

section
variable {m M : Nat} {ws : List Worker} {pool : List Nat} {id : Nat} {count : Int} {d : DPc}

/-- Different numbers between 1 and `m` are at most `m`. -/
theorem nodup_le {l : List Nat} (hn : l.Nodup) (h : ∀ x ∈ l, 1 ≤ x ∧ x ≤ m) : l.length ≤ m := by
  have hs : l ⊆ List.range' 1 m := fun x hx => by
    have := h x hx
    simp only [List.mem_range'_1]; omega
  have := (hn.subperm hs).length_le
  simpa using this

theorem W.idn (h : W m M ws pool id count d) : (ws.map Worker.id).Nodup := by
  rw [List.Nodup, List.pairwise_iff_getElem]
  intro i j hi hj hlt he
  rw [List.getElem_map, List.getElem_map] at he
  simp only [List.length_map] at hi hj
  have := h.inj i j _ _ (List.getElem?_eq_getElem hi) (List.getElem?_eq_getElem hj) he
  omega

/-- At most `minlimit` workers are of those that are kept. -/
theorem W.kept (h : W m M ws pool id count d) : ws.countP (fun k => decide (k.id ≤ m)) ≤ m := by
  rw [List.countP_eq_length_filter, ← List.length_map (f := Worker.id)]
  apply nodup_le (h.idn.sublist (List.Sublist.map _ List.filter_sublist))
  intro x hx
  obtain ⟨k, hk, rfl⟩ := List.mem_map.1 hx
  obtain ⟨hk, hm⟩ := List.mem_filter.1 hk
  obtain ⟨w, hw⟩ := List.mem_iff_getElem?.1 hk
  exact ⟨(h.ids w k hw).1, by simpa using hm⟩

/-- A worker outside the pool finds room in it. -/
theorem W.room (h : W m M ws pool id count d) {w : Nat} {k : Worker} (hk : ws[w]? = some k) (hm : k.id ≤ m) (hw : w ∉ pool) : pool.length < m := by
  have hn : (w :: pool).Nodup := List.nodup_cons.2 ⟨hw, h.pnd⟩
  have hin : ∀ x ∈ w :: pool, ∃ k, ws[x]? = some k ∧ k.id ≤ m := by
    intro x hx
    rcases List.mem_cons.1 hx with rfl | hx
    · exact ⟨k, hk, hm⟩
    · obtain ⟨k', h1, h2, _⟩ := h.pl x hx; exact ⟨k', h1, h2⟩
  have hmap : ((w :: pool).map fun x => ((ws[x]?).map Worker.id).getD 0).Nodup := by
    refine List.Nodup.map_on ?_ hn
    intro x hx y hy he
    obtain ⟨kx, hkx, _⟩ := hin x hx
    obtain ⟨ky, hky, _⟩ := hin y hy
    simp only [hkx, hky, Option.map_some, Option.getD_some] at he
    exact h.inj x y kx ky hkx hky he
  have := nodup_le (m := m) hmap (by
    intro z hz
    obtain ⟨x, hx, rfl⟩ := List.mem_map.1 hz
    obtain ⟨kx, hkx, hle⟩ := hin x hx
    simp only [hkx, Option.map_some, Option.getD_some]
    exact ⟨(h.ids x kx hkx).1, hle⟩)
  simp only [List.length_map, List.length_cons] at this
  omega

def isRun (k : Worker) : Bool := match k.pc with | .run _ => true | _ => false

theorem countP_or {α : Type} (p q r : α → Bool) (h : ∀ x, p x = true → q x = true ∨ r x = true) (l : List α) : l.countP p ≤ l.countP q + l.countP r := by
  induction l with
  | nil => simp
  | cons x xs ih =>
    simp only [List.countP_cons]
    have := h x
    cases hp : p x <;> cases hq : q x <;> cases hr : r x <;> simp_all <;> omega

theorem W.runs (h : W m M ws pool id count d) : ws.countP isRun ≤ M + m ∧ (M ≤ m → ws.countP isRun ≤ m) := by
  have hk := h.kept
  constructor
  · have := countP_or isRun (extra m) (fun k => decide (k.id ≤ m)) (fun k hr => by
      by_cases e : k.id ≤ m
      · simp [e]
      · left
        unfold isRun at hr
        cases hp : k.pc <;> simp [hp] at hr
        simp [extra, hp]; omega) ws
    have := h.tm
    omega
  · intro hle
    have h2 := (h.mm hle).2
    refine Nat.le_trans (List.countP_mono_left fun k hk' _ => ?_) hk
    obtain ⟨w, hw⟩ := List.mem_iff_getElem?.1 hk'
    simpa using h2 w k hw

end

section
variable {cfg : Cfg} {s : St}

/-- A worker of a pool that nobody closes or turns off can go on as soon as its function ends, unless it rests in the pool. -/
theorem nc_worker (h : NC cfg s) {w : Nat} {k : Worker} (hk : s.workers[w]? = some k) (h1 : act cfg s (.work w) = none) (h2 : act cfg s (.finish w) = none)
    (h3 : act cfg s .disp = none) : k.buf = none ∧ ((k.pc = .sel ∧ w ∈ s.pool) ∨ (k.pc = .dead ∧ cfg.minlimit < k.id)) := by
  have wk := h.wk
  have nadd : ∀ f w, s.disp ≠ .add f w := by
    intro f w hd
    obtain ⟨k, hk, hb, _⟩ := wk.ad f w hd
    simp [act, h.cr, stepDisp, hd, hk, hb] at h3
  have nonce : ∀ w, s.disp ≠ .once w := by
    intro w hd
    obtain ⟨k, hk, _⟩ := wk.on w hd
    cases hp : k.pc <;> simp [act, h.cr, stepDisp, hd, hk, hp] at h3
  have hb : k.buf = none := by
    cases hb : k.buf with
    | none => rfl
    | some f =>
      exfalso
      rcases wk.bf w k f hk hb with hp | hp
      · rcases wk.nw w k hk hp with ⟨f, hd⟩ | hd
        · exact nadd f w hd
        · exact nonce w hd
      · simp [act, h.cr, hk, stepWork, hp, hb] at h1
  refine ⟨hb, ?_⟩
  cases hp : k.pc with
  | new =>
    rcases wk.nw w k hk hp with ⟨f, hd⟩ | hd
    · exact absurd hd (nadd f w)
    · exact absurd hd (nonce w)
  | sel =>
    left
    refine ⟨rfl, ?_⟩
    have hm : k.id ≤ cfg.minlimit := by
      apply Classical.byContradiction
      intro hm
      exact wk.ts w k hk hp (by omega) hb
    rcases wk.pi w k hk hm hp hb with hw | ⟨f, hd⟩
    · exact hw
    · exact absurd hd (nadd f w)
  | run f => simp [act, h.cr, hk, hp] at h2
  | put1 d => simp [act, h.cr, hk, stepWork, hp] at h1
  | put2 d => simp [act, h.cr, hk, stepWork, hp] at h1
  | put3 d =>
    have hw : w ∉ s.pool := by
      intro hw
      obtain ⟨k', hk', _, hp', _⟩ := wk.pl w hw
      rw [hk] at hk'; cases hk'; rw [hp] at hp'; cases hp'
    have := wk.room hk (wk.p3 w k d hk hp) hw
    simp [act, h.cr, hk, stepWork, hp, h.pc, this] at h1
  | dead => right; exact ⟨rfl, wk.dd w k hk hp⟩

/-- A dispatcher that cannot go on waits for a task, if there is a worker that is kept. -/
theorem nc_disp (h : NC cfg s) (hm : 1 ≤ cfg.minlimit) (h1 : ∀ w, act cfg s (.work w) = none) (h2 : ∀ w, act cfg s (.finish w) = none)
    (h3 : act cfg s .disp = none) : s.disp = .idle ∨ (s.disp = .range ∧ s.q = []) := by
  have wk := h.wk
  cases hd : s.disp with
  | idle => exact .inl rfl
  | range =>
    right
    refine ⟨rfl, ?_⟩
    cases hq : s.q with
    | nil => rfl
    | cons f q => simp [act, h.cr, stepDisp, hd, hq] at h3
  | wait f =>
    exfalso
    cases hp : s.pool with
    | cons w p => simp [act, h.cr, stepDisp, hd, hp] at h3
    | nil =>
      have hid := wk.wt f hd
      obtain ⟨w, k, hk, hkid⟩ := wk.all 1 (Nat.le_refl _) hm (by omega)
      rcases (nc_worker h hk (h1 w) (h2 w) h3).2 with ⟨_, hw⟩ | ⟨_, hlt⟩
      · rw [hp] at hw; cases hw
      · omega
  | add f w =>
    obtain ⟨k, hk, hb, _⟩ := wk.ad f w hd
    simp [act, h.cr, stepDisp, hd, hk, hb] at h3
  | once w =>
    obtain ⟨k, hk, _⟩ := wk.on w hd
    cases hp : k.pc <;> simp [act, h.cr, stepDisp, hd, hk, hp] at h3
  | incId f => simp only [act, h.cr, stepDisp, hd, Bool.false_eq_true, if_false] at h3; split at h3 <;> cases h3
  | chk f => simp [act, h.cr, stepDisp, hd, h.close] at h3
  | cnt f => simp [act, h.cr, stepDisp, hd] at h3
  | newId f => simp [act, h.cr, stepDisp, hd] at h3
  | idChk f => simp [act, h.cr, stepDisp, hd] at h3
  | dec => simp [act, h.cr, stepDisp, hd] at h3
  | last => simp [act, h.cr, stepDisp, hd] at h3
  | unlock => simp [act, h.cr, stepDisp, hd] at h3

theorem Awake.empty (hw : Awake s) (hcr : s.crash = false) (hq : ∀ a, isCall a = false → a ≠ .timer → act cfg s a = none)
    (hd : s.disp = .idle ∨ (s.disp = .range ∧ s.q = [])) : s.q = [] := by
  rcases hd with hd | hd
  · apply Classical.byContradiction
    intro hne
    obtain ⟨i, c, hi, hp⟩ := hw (.inl hd) hne
    have := hq (.step i) rfl (by simp)
    rcases hp with hp | hp <;> simp [act, hcr, hi, stepCall, hp] at this
  · exact hd.2

theorem started_of (hocc : ∀ x, occ s x = accN s.log x) (hq : s.q = []) (hd : ∀ x, holds x s.disp = false)
    (hb : ∀ (w : Nat) (k : Worker), s.workers[w]? = some k → k.buf = none) (hf : ∀ (j : Nat) (g : Free), s.free[j]? = some g → g.pc ≠ .ready)
    {i : Nat} (ha : Accepted s i) : i ∈ s.started := by
  obtain ⟨c, hi, hk, hp⟩ := ha
  have h1 := hocc i
  have h2 : accN s.log i = 1 := by
    rw [accN_self hi]
    rcases hp with hp | hp | hp <;> simp [acc, hk, hp]
  have h3 : s.workers.countP (bufIs i) = 0 := by
    rw [List.countP_eq_zero]
    intro k hk
    obtain ⟨w, hw⟩ := List.mem_iff_getElem?.1 hk
    simp [bufIs, hb w k hw]
  have h4 : s.free.countP (ready i) = 0 := by
    rw [List.countP_eq_zero]
    intro g hg
    obtain ⟨j, hj⟩ := List.mem_iff_getElem?.1 hg
    simp [ready, hf j g hj]
  unfold occ at h1
  rw [hq, hd, h3, h4, h2] at h1
  simp only [List.count_nil, Bool.toNat_false] at h1
  exact List.count_pos_iff.1 (by omega)

theorem nc_quiet (h : NC cfg s) (hw : Awake s) (hm : 1 ≤ cfg.minlimit) (hf : 1 ≤ cfg.funcLimit) (hq : Quiescent cfg s) :
    (∀ (i : Nat) (c : Call), s.log[i]? = some c → c.pc = .ret) ∧ (∀ i, Accepted s i → i ∈ s.started) ∧ running s = 0 := by
  have h3 := hq .disp rfl (by simp)
  have hd := nc_disp h hm (fun w => hq (.work w) rfl (by simp)) (fun w => hq (.finish w) rfl (by simp)) h3
  have he := hw.empty h.cr hq hd
  have hwk : ∀ (w : Nat) (k : Worker), s.workers[w]? = some k → _ := fun w k hk => nc_worker h hk (hq (.work w) rfl (by simp)) (hq (.finish w) rfl (by simp)) h3
  refine ⟨?_, ?_, ?_⟩
  · intro i c hi
    have := hq (.step i) rfl (by simp)
    have hg := (h.go i c hi).2
    cases hp : c.pc <;> simp [hp, goPc] at hg <;> simp [act, h.cr, hi, stepCall, hp, h.close, h.qc, he] at this
    · omega
    · rfl
  · intro i ha
    refine started_of h.oc he ?_ (fun w k hk => (hwk w k hk).1) (by simp [h.fr]) ha
    intro x
    rcases hd with hd | ⟨hd, _⟩ <;> rw [hd] <;> rfl
  · unfold running
    rw [h.fr, List.countP_nil, Nat.add_zero, List.countP_eq_zero]
    intro k hk
    obtain ⟨w, hw⟩ := List.mem_iff_getElem?.1 hk
    rcases (hwk w k hw).2 with ⟨e, _⟩ | ⟨e, _⟩ <;> simp [e]

end

end Gofer.GoPool
