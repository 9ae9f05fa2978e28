import Verif.Proof.RWLock
import Verif.Model.RWLock
/-! # No deadlock: progress, the bound on the steps, and the code of the containers -/
namespace Gofer.RWLock
open Gofer.Race (Act upd Code Calls)

variable {M X V : Type} [DecidableEq M]

theorem holder_steps {s : Sys M X V} {H : Nat → Option (M × Bool)} (I : Inv s H) {i : Nat} {p : M × Bool} (h : H i = some p) :
    s.step i ≠ none := by
  cases e : s.thr[i]? with
  | none => rw [I.out i e] at h; cases h
  | some sc =>
  have f := I.fl i _ e
  rw [h] at f
  cases sc with
  | nil => simp [flat] at f
  | cons a l =>
  by_cases ha : isWork a = true
  · rw [step_work e ha]; simp
  · obtain ⟨m', w⟩ := p
    cases a with
    | lock m => simp [flat] at f
    | rlock m => simp [flat] at f
    | unlock m =>
      simp [flat] at f
      obtain ⟨⟨rfl, rfl⟩, _⟩ := f
      obtain ⟨h1, h2⟩ := I.w2 m i h
      simp [Sys.step, e, h1, h2]
    | runlock m =>
      simp [flat] at f
      obtain ⟨⟨rfl, rfl⟩, _⟩ := f
      have hr := I.rd m i
      rw [h] at hr
      simp at hr
      have : i ∈ s.rds m := List.count_pos_iff.1 (by omega)
      simp [Sys.step, e, this]
    | _ => simp [isWork] at ha

theorem pend_steps {s : Sys M X V} {H : Nat → Option (M × Bool)} (I : Inv s H) {m : M} {i : Nat} (h : s.pend m = some i) :
    ∃ j, s.step j ≠ none := by
  cases ha : s.act m with
  | true => exact ⟨i, holder_steps I (I.w1 m i h ha)⟩
  | false =>
    obtain ⟨l, hl⟩ := I.ann m i h ha
    cases hr : s.rds m with
    | nil => exact ⟨i, by simp [Sys.step, hl, h, ha, hr]⟩
    | cons j r =>
      refine ⟨j, holder_steps I (p := (m, false)) ?_⟩
      have := I.rd m j
      rw [hr] at this
      by_contra hc
      simp [hc] at this

theorem progress {s : Sys M X V} {H : Nat → Option (M × Bool)} (I : Inv s H) (hs : s.Stuck) (i : Nat) : s.Done i := by
  cases e : s.thr[i]? with
  | none => exact .inr e
  | some sc =>
  cases sc with
  | nil => exact .inl e
  | cons a l =>
  exfalso
  cases hH : H i with
  | some p => exact holder_steps I hH (hs i)
  | none =>
  have f := I.fl i _ e
  rw [hH] at f
  by_cases ha : isWork a = true
  · have := hs i; rw [step_work e ha] at this; cases this
  · have key : ∀ m, s.pend m = none := by
      intro m
      cases hp : s.pend m with
      | none => rfl
      | some j => obtain ⟨j', hj⟩ := pend_steps I hp; exact absurd (hs j') hj
    have h1 := hs i
    cases a with
    | lock m => simp [Sys.step, e, key] at h1
    | rlock m => simp [Sys.step, e, key] at h1
    | unlock m => simp [flat] at f
    | runlock m => simp [flat] at f
    | _ => simp [isWork] at ha

/-- Of the goroutine `i` with script `l`: what is left to do, an announced `Lock` counting one less. -/
def weight (s : Sys M X V) (i : Nat) : List (Act M X V) → Nat
  | .lock m :: l => if s.pend m = some i then 2 * l.length + 1 else 2 * l.length + 2
  | l => 2 * l.length

/-- What is left to do. -/
def total (f : Nat → List (Act M X V) → Nat) : Nat → List (List (Act M X V)) → Nat
  | _, [] => 0
  | n, l :: r => f n l + total f (n + 1) r

omit [DecidableEq M] in
theorem total_le {f g : Nat → List (Act M X V) → Nat} : ∀ {t : List (List (Act M X V))} {n : Nat},
    (∀ i l, t[i]? = some l → f (n + i) l ≤ g (n + i) l) → total f n t ≤ total g n t := by
  intro t
  induction t with
  | nil => intro n _; simp [total]
  | cons a t ih =>
    intro n h
    have h0 := h 0 a rfl
    have h1 := ih (n := n + 1) (fun i l hl => by
      have := h (i + 1) l (by simpa using hl)
      rwa [show n + (i + 1) = n + 1 + i by omega] at this)
    simp [total] at h0 ⊢
    omega

omit [DecidableEq M] in
theorem total_set {f g : Nat → List (Act M X V) → Nat} {a : List (Act M X V)} : ∀ {t : List (List (Act M X V))} {n i : Nat} {l : List (Act M X V)},
    t[i]? = some l → (∀ j l, j ≠ i → t[j]? = some l → f (n + j) l ≤ g (n + j) l) → f (n + i) a + 1 ≤ g (n + i) l →
      total f n (t.set i a) + 1 ≤ total g n t := by
  intro t
  induction t with
  | nil => intro n i l h; simp at h
  | cons b t ih =>
    intro n i l h hj hi
    cases i with
    | zero =>
      simp at h; subst h
      have h1 := total_le (f := f) (g := g) (t := t) (n := n + 1) (fun i l hl => by
        have := hj (i + 1) l (by omega) (by simpa using hl)
        rwa [show n + (i + 1) = n + 1 + i by omega] at this)
      simp [total] at hi ⊢
      omega
    | succ i =>
      simp at h
      have h0 := hj 0 b (by omega) rfl
      have h1 := ih (n := n + 1) (i := i) h (fun j l e hl => by
        have := hj (j + 1) l (by omega) (by simpa using hl)
        rwa [show n + (j + 1) = n + 1 + j by omega] at this) (by
        rwa [show n + (i + 1) = n + 1 + i by omega] at hi)
      simp [total] at h0 ⊢
      omega

theorem weight_le {s : Sys M X V} {i : Nat} {l : List (Act M X V)} : weight s i l ≤ 2 * l.length := by
  unfold weight
  split
  · split <;> simp <;> omega
  · omega

theorem weight_cons {s : Sys M X V} {i : Nat} {a : Act M X V} {l : List (Act M X V)} : 2 * l.length + 1 ≤ weight s i (a :: l) := by
  unfold weight
  split
  · rename_i h; injection h with h1 h2; subst h2; split <;> omega
  · simp; omega

theorem list_set_same {α : Type} {t : List α} {i : Nat} {l : α} (h : t[i]? = some l) : t.set i l = t := by
  apply List.ext_getElem?
  intro j
  rw [get_set]
  split
  · rename_i hc; obtain ⟨rfl, _⟩ := hc; exact h.symm
  · rfl

/-- Every step leaves less to do. -/
theorem weight_step {s s' : Sys M X V} {i : Nat}
    (h : s.step i = some s') : total (weight s') 0 s'.thr + 1 ≤ total (weight s) 0 s.thr := by
  cases e : s.thr[i]? with
  | none => simp [Sys.step, e] at h
  | some sc =>
  cases sc with
  | nil => simp [Sys.step, e] at h
  | cons a l =>
  have same : ∀ s'' : Sys M X V, s''.pend = s.pend → ∀ j l, weight s'' (0 + j) l ≤ weight s (0 + j) l := by
    intro s'' hs'' j l
    unfold weight
    rw [hs'']
    exact Nat.le_refl _
  have pop : ∀ s'' : Sys M X V, weight s'' (0 + i) l + 1 ≤ weight s (0 + i) (a :: l) := fun s'' =>
    Nat.le_trans (Nat.succ_le_succ weight_le) weight_cons
  by_cases ha : isWork a = true
  · rw [step_work e ha] at h
    cases h
    exact total_set e (fun j l _ _ => same _ rfl j l) (pop _)
  · cases a with
    | lock m =>
      simp only [Sys.step, e] at h
      split at h
      · rename_i hp
        cases h
        have := total_set (f := weight { s with pend := upd s.pend m (some i) }) (g := weight s) (a := .lock m :: l) (n := 0) e
          (fun j l' hj hl => by
            clear hl
            unfold weight
            split
            · rename_i m' l''
              by_cases em : m' = m
              · subst em; simp [upd, hp]; split <;> omega
              · simp [upd, em]
            · exact Nat.le_refl _)
          (by simp [weight, upd, hp])
        rwa [list_set_same e] at this
      · split at h
        · cases h
          exact total_set e (fun j l _ _ => same _ rfl j l) (pop _)
        · cases h
    | unlock m =>
      simp only [Sys.step, e] at h
      split at h
      · rename_i hc
        cases h
        refine total_set e (fun j l' hj hl' => ?_) (pop _)
        clear hl'
        unfold weight
        split
        · rename_i m' l''
          by_cases em : m' = m
          · subst em
            have : ¬ s.pend m' = some (0 + j) := by rw [hc.1]; intro h; injection h; omega
            rw [if_neg this]
            simp [upd]
          · simp [upd, em]
        · exact Nat.le_refl _
      · cases h
    | rlock m =>
      simp only [Sys.step, e] at h
      split at h
      · cases h
        exact total_set e (fun j l _ _ => same _ rfl j l) (pop _)
      · cases h
    | runlock m =>
      simp only [Sys.step, e] at h
      split at h
      · cases h
        exact total_set e (fun j l _ _ => same _ rfl j l) (pop _)
      · cases h
    | _ => simp [isWork] at ha

theorem total_init : ∀ {t : List (List (Act M X V))} {n : Nat} {s : Sys M X V}, total (weight s) n t ≤ 2 * (t.map List.length).sum := by
  intro t
  induction t with
  | nil => intro n s; simp [total]
  | cons a t ih =>
    intro n s
    have h1 := ih (n := n + 1) (s := s)
    have h2 := weight_le (s := s) (i := n) (l := a)
    simp only [total, List.map_cons, List.sum_cons]
    omega

theorem run_len : ∀ {sched : List Nat} {s s' : Sys M X V}, s.run sched = some s' →
    total (weight s') 0 s'.thr + sched.length ≤ total (weight s) 0 s.thr := by
  intro sched
  induction sched with
  | nil => intro s s' h; simp [Sys.run] at h; subst h; simp
  | cons i l ih =>
    intro s s' h
    simp only [Sys.run, Option.bind_eq_some_iff] at h
    obtain ⟨s1, h1, h2⟩ := h
    have := weight_step h1
    have := ih h2
    simp only [List.length_cons]
    omega

theorem run_inv {P : Sys M X V → Prop} (hP : ∀ s s' i, P s → s.step i = some s' → P s') : ∀ {sched : List Nat} {s s' : Sys M X V},
    P s → s.run sched = some s' → P s' := by
  intro sched
  induction sched with
  | nil => intro s s' h hr; simp [Sys.run] at hr; subst hr; exact h
  | cons i l ih =>
    intro s s' h hr
    simp only [Sys.run, Option.bind_eq_some_iff] at hr
    obtain ⟨s1, h1, h2⟩ := hr
    exact ih (hP _ _ _ h h1) h2

theorem bound {scripts : List (List (Act M X V))} {sched : List Nat} {s : Sys M X V} (h : (Sys.init scripts).run sched = some s) :
    sched.length ≤ 2 * (scripts.map List.length).sum := by
  have h1 := run_len h
  have h2 := total_init (t := scripts) (n := 0) (s := Sys.init scripts)
  simp only [Sys.init] at h1 h2
  omega

/-- Goroutines that take one mutex at a time do not deadlock. -/
theorem returns_of_flat {scripts : List (List (Act M X V))} (h : ∀ l ∈ scripts, flat none l = true) : Returns scripts := by
  intro sched s hr
  refine ⟨bound hr, fun hs => ?_⟩
  have I0 : ∃ H, Inv (Sys.init scripts) H := by
    refine ⟨fun _ => none, fun i l hl => h l (List.mem_of_getElem? hl), fun _ _ => rfl, ?_, ?_, ?_, ?_, ?_⟩ <;> simp [Sys.init]
  obtain ⟨H, I⟩ := run_inv (P := fun s => ∃ H, Inv s H) (fun _ _ _ ⟨_, I⟩ hst => inv_step I hst) I0 hr
  exact progress I hs

/-- The code takes no mutex while it holds one. -/
def noNest : Bool → Code M X → Bool
  | h, .seq a b => noNest h a && noNest h b
  | h, .alt a b => noNest h a && noNest h b
  | h, .star a => noNest h a
  | h, .locked _ _ c => !h && noNest true c
  | _, _ => true

/-- While a mutex is held: only work. -/
theorem runs_work {c : Code M X} {l : List (Act M X Unit)} (h : c.Runs l) (hn : noNest true c = true) : ∀ a ∈ l, isWork a = true := by
  induction h with
  | seq _ _ i1 i2 | starCons _ _ i1 i2 =>
    simp [noNest] at hn i1 i2
    intro a ha
    rcases List.mem_append.1 ha with ha | ha
    · first | exact i1 hn.1 a ha | exact i1 hn a ha
    · first | exact i2 hn.2 a ha | exact i2 hn a ha
  | altL _ i1 => simp [noNest] at hn; exact i1 hn.1
  | altR _ i1 => simp [noNest] at hn; exact i1 hn.2
  | lockedW _ _ _ | lockedR _ _ _ => simp [noNest] at hn
  | _ => simp [isWork]

theorem flat_works {p q : List (Act M X V)} {h : Option (M × Bool)} (hp : ∀ a ∈ p, isWork a = true) : flat h (p ++ q) = flat h q := by
  induction p with
  | nil => rfl
  | cons a p ih =>
    rw [List.cons_append, flat_work (hp a (by simp))]
    exact ih fun b hb => hp b (by simp [hb])

theorem flat_runs {c : Code M X} {l : List (Act M X Unit)} (h : c.Runs l) (hn : noNest false c = true) :
    ∀ q, flat none (l ++ q) = flat none q := by
  induction h with
  | seq _ _ i1 i2 =>
    simp [noNest] at hn
    intro q; rw [List.append_assoc, i1 hn.1, i2 hn.2]
  | starCons _ _ i1 i2 =>
    simp [noNest] at hn i2
    intro q; rw [List.append_assoc, i1 hn, i2 hn]
  | altL _ i1 => simp [noNest] at hn; exact i1 hn.1
  | altR _ i1 => simp [noNest] at hn; exact i1 hn.2
  | lockedW h1 hp _ | lockedR h1 hp _ =>
    simp [noNest] at hn
    intro q
    have hw := runs_work h1 hn
    simp only [List.cons_append, flat, List.append_assoc]
    rw [flat_works fun a ha => hw a (hp.subset ha)]
    simp [flat]
  | _ => intro q; simp [flat]

theorem flat_calls {P : List (Act M X V) → Prop} (hP : ∀ l, P l → ∀ q, flat none (l ++ q) = flat none q) :
    ∀ {g : List (List (Act M X V))}, (∀ c ∈ g, P c) → flat none g.flatten = true := by
  intro g
  induction g with
  | nil => intro _; rfl
  | cons c g ih =>
    intro h
    rw [List.flatten_cons, hP c (h c (by simp))]
    exact ih fun c hc => h c (by simp [hc])

/-- Goroutines that call methods which take one mutex at a time. -/
theorem returns_calls {P : List (Act M X V) → Prop} (hP : ∀ l, P l → ∀ q, flat none (l ++ q) = flat none q)
    {gs : List (List (List (Act M X V)))} (h : ∀ g ∈ gs, ∀ c ∈ g, P c) : Returns (gs.map List.flatten) := by
  apply returns_of_flat
  intro l hl
  obtain ⟨g, hg, rfl⟩ := List.mem_map.1 hl
  exact flat_calls hP (h g hg)

theorem returns_code {Op : Type} {code : Op → Code M X} {ops : Op → Prop} (hn : ∀ op, noNest false (code op) = true)
    {gs : List (List (List (Act M X Unit)))} (h : ∀ g ∈ gs, ∀ c ∈ g, Calls code ops c) : Returns (gs.map List.flatten) :=
  returns_calls (P := Calls code ops) (fun _ ⟨op, _, hr⟩ => flat_runs hr (hn op)) h

theorem noNest_all {h : Bool} {cs : List (Code M X)} : noNest h (Code.all cs) = cs.all fun c => noNest h c := by
  induction cs with
  | nil => rfl
  | cons c cs ih => simp [Code.all, noNest, ih]

/-! ## Readers that nest -/

/-- Read locks taken and released, `n` held. -/
def nest : Nat → List A → Bool
  | n, [] => n == 0
  | n, .rlock _ :: l => nest (n + 1) l
  | n, .runlock _ :: l => decide (0 < n) && nest (n - 1) l
  | _, .lock _ :: _ => false
  | _, .unlock _ :: _ => false
  | n, .rd _ _ :: l => nest n l
  | n, .wr _ _ :: l => nest n l
  | n, .aload _ _ :: l => nest n l
  | n, .armw _ _ _ :: l => nest n l
  | n, .chan _ :: l => nest n l
  | n, .go _ :: l => nest n l

theorem nest_uses {p : Part} {l : List A} (h : Uses false p l) : ∀ n q, nest n (l ++ q) = nest n q := by
  induction h with
  | nil | last => intro n q; rfl
  | get _ ih => intro n q; simp [nest, ih]
  | put hw _ _ | del hw _ _ => cases hw
  | iter _ _ i1 i2 => intro n q; simp [nest, i1, i2]
  | item _ _ i1 i2 => intro n q; simp [nest, i1, i2]

/-- Nobody announces itself as a writer, and the read locks are counted. -/
structure NInv (s : Sys Unit Gofer.Race.TreeMapR.Loc Unit) : Prop where
  p : s.pend () = none
  n : ∀ i l, s.thr[i]? = some l → nest ((s.rds ()).count i) l = true

theorem nest_work {a : A} {l : List A} {n : Nat} (ha : isWork a = true) : nest n (a :: l) = nest n l := by
  cases a <;> simp [isWork] at ha <;> simp [nest]

theorem ninv_step {s s' : Sys Unit Gofer.Race.TreeMapR.Loc Unit} {i : Nat} (I : NInv s) (h : s.step i = some s') : NInv s' := by
  cases e : s.thr[i]? with
  | none => simp [Sys.step, e] at h
  | some sc =>
  cases sc with
  | nil => simp [Sys.step, e] at h
  | cons a l =>
  have f := I.n i _ e
  by_cases ha : isWork a = true
  · rw [step_work e ha] at h
    cases h
    refine ⟨I.p, fun j l' hj => ?_⟩
    rw [get_set] at hj
    split at hj
    · rename_i hc; obtain ⟨rfl, _⟩ := hc; cases hj; rwa [nest_work ha] at f
    · exact I.n j l' hj
  · cases a with
    | lock m => simp [nest] at f
    | unlock m => simp [nest] at f
    | rlock m =>
      simp only [Sys.step, e, show s.pend m = none from I.p, if_true] at h
      cases h
      refine ⟨I.p, fun j l' hj => ?_⟩
      rw [get_set] at hj
      split at hj
      · rename_i hc; obtain ⟨rfl, _⟩ := hc; cases hj; simpa [nest, upd] using f
      · rename_i hc
        have hi : i < s.thr.length := by rw [List.getElem?_eq_some_iff] at e; exact e.1
        have ej : ¬ i = j := fun h => hc ⟨h, hi⟩
        have := I.n j l' hj
        simpa [upd, List.count_cons, ej] using this
    | runlock m =>
      simp [nest] at f
      have hin : i ∈ s.rds m := f.1
      simp only [Sys.step, e, hin, if_true] at h
      cases h
      refine ⟨I.p, fun j l' hj => ?_⟩
      rw [get_set] at hj
      split at hj
      · rename_i hc; obtain ⟨rfl, _⟩ := hc; cases hj; simpa [upd] using f.2
      · rename_i hc
        have hi : i < s.thr.length := by rw [List.getElem?_eq_some_iff] at e; exact e.1
        have ej : ¬ j = i := fun h => hc ⟨h.symm, hi⟩
        have := I.n j l' hj
        simpa [upd, List.count_erase_of_ne ej] using this
    | _ => simp [isWork] at ha

theorem returns_readers {scripts : List (List A)} (h : ∀ l ∈ scripts, Uses false .calls l) : Returns scripts := by
  intro sched s hr
  refine ⟨bound hr, fun hs i => ?_⟩
  have I0 : NInv (Sys.init scripts) := by
    refine ⟨rfl, fun i l hl => ?_⟩
    have := nest_uses (h l (List.mem_of_getElem? hl)) 0 []
    simpa [Sys.init, nest] using this
  have I := run_inv (P := NInv) (fun _ _ _ I hst => ninv_step I hst) I0 hr
  cases e : s.thr[i]? with
  | none => exact .inr e
  | some sc =>
  cases sc with
  | nil => exact .inl e
  | cons a l =>
  exfalso
  have f := I.n i _ e
  have h1 := hs i
  by_cases ha : isWork a = true
  · rw [step_work e ha] at h1; cases h1
  · cases a with
    | lock m => simp [nest] at f
    | unlock m => simp [nest] at f
    | rlock m => simp [Sys.step, e, show s.pend m = none from I.p] at h1
    | runlock m =>
      simp [nest] at f
      have hin : i ∈ s.rds m := f.1
      simp [Sys.step, e, hin] at h1
    | _ => simp [isWork] at ha

/-! ## A writer below its own read lock -/

/-- Read locks held after `l`. -/
def depth : Nat → List A → Nat
  | n, [] => n
  | n, .rlock _ :: l => depth (n + 1) l
  | n, .runlock _ :: l => depth (n - 1) l
  | n, _ :: l => depth n l

theorem depth_app : ∀ {p q : List A} {n : Nat}, depth n (p ++ q) = depth (depth n p) q := by
  intro p
  induction p with
  | nil => intro q n; rfl
  | cons a p ih => intro q n; cases a <;> simp [depth, ih]

theorem depth_work {a : A} {l : List A} {n : Nat} (ha : isWork a = true) : depth n (a :: l) = depth n l := by
  cases a <;> simp [isWork] at ha <;> simp [depth]

/-- The goroutine `i` is on its way to a `Lock` with a read lock held. -/
def Doomed (i : Nat) (post : List A) (s : Sys Unit Gofer.Race.TreeMapR.Loc Unit) : Prop :=
  ∃ q, s.thr[i]? = some (q ++ .lock () :: post) ∧ 0 < depth ((s.rds ()).count i) q

theorem doomed_step {i : Nat} {post : List A} {s s' : Sys Unit Gofer.Race.TreeMapR.Loc Unit} {j : Nat} (D : Doomed i post s)
    (h : s.step j = some s') : Doomed i post s' := by
  obtain ⟨q, hq, hd⟩ := D
  cases e : s.thr[j]? with
  | none => simp [Sys.step, e] at h
  | some sc =>
  cases sc with
  | nil => simp [Sys.step, e] at h
  | cons a l =>
  by_cases ej : j = i
  · subst ej
    have hi : j < s.thr.length := by rw [List.getElem?_eq_some_iff] at e; exact e.1
    have hset : ∀ x : List A, (s.thr.set j x)[j]? = some x := fun x => by rw [get_set]; simp [hi]
    rw [e] at hq
    cases q with
    | nil =>
      simp at hq
      obtain ⟨rfl, rfl⟩ := hq
      simp only [Sys.step, e] at h
      split at h
      · cases h; exact ⟨[], e, hd⟩
      · split at h
        · rename_i hc
          simp [depth, hc.2.2] at hd
        · cases h
    | cons b q =>
      simp at hq
      obtain ⟨rfl, rfl⟩ := hq
      by_cases ha : isWork a = true
      · rw [step_work e ha] at h
        cases h
        exact ⟨q, hset _, by rwa [depth_work ha] at hd⟩
      · cases a with
        | lock m =>
          simp only [Sys.step, e] at h
          split at h
          · cases h; exact ⟨.lock m :: q, e, hd⟩
          · split at h
            · cases h; exact ⟨q, hset _, by simpa [depth] using hd⟩
            · cases h
        | unlock m =>
          simp only [Sys.step, e] at h
          split at h
          · cases h; exact ⟨q, hset _, by simpa [depth] using hd⟩
          · cases h
        | rlock m =>
          simp only [Sys.step, e] at h
          split at h
          · cases h; exact ⟨q, hset _, by simpa [depth, upd] using hd⟩
          · cases h
        | runlock m =>
          simp only [Sys.step, e] at h
          split at h
          · cases h; exact ⟨q, hset _, by simpa [depth, upd] using hd⟩
          · cases h
        | _ => simp [isWork] at ha
  · have hne : ∀ x : List A, (s.thr.set j x)[i]? = s.thr[i]? := fun x => by rw [get_set]; simp [ej]
    by_cases ha : isWork a = true
    · rw [step_work e ha] at h
      cases h
      exact ⟨q, (hne _).trans hq, hd⟩
    · cases a with
      | lock m =>
        simp only [Sys.step, e] at h
        split at h
        · cases h; exact ⟨q, hq, hd⟩
        · split at h
          · cases h; exact ⟨q, (hne _).trans hq, hd⟩
          · cases h
      | unlock m =>
        simp only [Sys.step, e] at h
        split at h
        · cases h; exact ⟨q, (hne _).trans hq, hd⟩
        · cases h
      | rlock m =>
        simp only [Sys.step, e] at h
        split at h
        · cases h; exact ⟨q, (hne _).trans hq, by simpa [upd, List.count_cons, ej] using hd⟩
        · cases h
      | runlock m =>
        simp only [Sys.step, e] at h
        split at h
        · cases h
          have ei : ¬ i = j := fun h => ej h.symm
          exact ⟨q, (hne _).trans hq, by simpa [upd, List.count_erase_of_ne ei] using hd⟩
        · cases h
      | _ => simp [isWork] at ha

theorem doomed {scripts : List (List A)} {i : Nat} {q post : List A} (hi : scripts[i]? = some (q ++ .lock () :: post)) (hd : 0 < depth 0 q)
    {sched : List Nat} {s : Sys Unit Gofer.Race.TreeMapR.Loc Unit} (hr : (Sys.init scripts).run sched = some s) : ¬ s.Done i := by
  have D : Doomed i post (Sys.init scripts) := ⟨q, hi, by simpa [Sys.init] using hd⟩
  obtain ⟨q', hq', _⟩ := run_inv (P := Doomed i post) (fun _ _ _ D h => doomed_step D h) D hr
  rintro (h | h) <;> rw [hq'] at h <;> simp at h

theorem depth_uses {w : Bool} {p : Part} {l : List A} (h : Uses w p l) : ∀ n, depth n l = n := by
  induction h with
  | nil | last => intro n; rfl
  | get _ ih => intro n; simp [depth, ih]
  | put hw _ ih | del hw _ ih => intro n; simp [depth, ih]
  | iter _ _ i1 i2 => intro n; simp [depth, depth_app, i1, i2]
  | item _ _ i1 i2 => intro n; simp [depth, depth_app, i1, i2]

end Gofer.RWLock
