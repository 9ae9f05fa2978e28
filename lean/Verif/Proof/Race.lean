import Verif.Spec.Race
import Mathlib.Tactic.Common
/-! # Lock discipline excludes data races -/
namespace Gofer.Race

variable {M X V : Type}

/-- How a location is protected: by a mutex, accessed atomically only, written once before it is made known, never written, not at all. -/
inductive Kind (M : Type) where
  | guarded (m : M)
  | atomic
  | cell
  | frozen
  | free
  deriving DecidableEq

/-- What one goroutine knows: the mutexes it holds, the cells it has seen. -/
structure LSt (M X : Type) where
  hw : M → Bool
  hr : M → Nat
  K : X → Prop

def LSt.init : LSt M X := ⟨fun _ => false, fun _ => 0, fun _ => False⟩

def canRead (kind : X → Kind M) (s : LSt M X) (x : X) (atomic : Bool) : Prop :=
  (∀ m, kind x = .guarded m → s.hw m = true ∨ 0 < s.hr m) ∧ (kind x = .atomic → atomic = true) ∧
  (kind x = .cell → atomic = false ∧ s.K x)

def canWrite (kind : X → Kind M) (s : LSt M X) (x : X) (atomic : Bool) : Prop :=
  (∀ m, kind x = .guarded m → s.hw m = true) ∧ (kind x = .atomic → atomic = true) ∧ (kind x = .cell → atomic = false) ∧
  kind x ≠ .frozen

/-- The action respects the protection of the locations; `ment v c`: the value `v` holds a pointer to the cell `c`. -/
def allowed (kind : X → Kind M) (ment : V → X → Prop) (s : LSt M X) : Act M X V → Prop
  | .rd x _ => canRead kind s x false
  | .wr x v => canWrite kind s x false ∧ ∀ c, ment v c → s.K c ∧ kind x ≠ .free
  | .aload x _ => canRead kind s x true
  | .armw x a b => canWrite kind s x true ∧ ∀ c, ment b c → (s.K c ∨ ment a c) ∧ kind x ≠ .free
  | _ => True

def next [DecidableEq M] (kind : X → Kind M) (ment : V → X → Prop) (s : LSt M X) : Act M X V → LSt M X
  | .lock m => { s with hw := upd s.hw m true }
  | .unlock m => { s with hw := upd s.hw m false }
  | .rlock m => { s with hr := upd s.hr m (s.hr m + 1) }
  | .runlock m => { s with hr := upd s.hr m (s.hr m - 1) }
  | .rd _ v => { s with K := fun c => s.K c ∨ ment v c }
  | .wr x _ => { s with K := fun c => s.K c ∨ (c = x ∧ kind x = .cell) }
  | .aload _ v => { s with K := fun c => s.K c ∨ ment v c }
  | .armw _ a _ => { s with K := fun c => s.K c ∨ ment a c }
  | .chan _ => s
  | .go _ => s

def Disc [DecidableEq M] (kind : X → Kind M) (ment : V → X → Prop) : LSt M X → List (Act M X V) → Prop
  | _, [] => True
  | s, a :: l => allowed kind ment s a ∧ Disc kind ment (next kind ment s a) l

def after [DecidableEq M] (kind : X → Kind M) (ment : V → X → Prop) (s : LSt M X) (l : List (Act M X V)) : LSt M X :=
  l.foldl (next kind ment) s

section
variable [DecidableEq M] {kind : X → Kind M} {ment : V → X → Prop}

theorem disc_append {s : LSt M X} {l l' : List (Act M X V)} :
    Disc kind ment s (l ++ l') ↔ Disc kind ment s l ∧ Disc kind ment (after kind ment s l) l' := by
  induction l generalizing s with
  | nil => simp [Disc, after]
  | cons a l ih => simp [Disc, after, ih, and_assoc]

theorem after_append {s : LSt M X} {l l' : List (Act M X V)} :
    after kind ment s (l ++ l') = after kind ment (after kind ment s l) l' := by simp [after]

theorem disc_prefix {s : LSt M X} {l l' : List (Act M X V)} (h : l <+: l') (d : Disc kind ment s l') : Disc kind ment s l := by
  obtain ⟨r, rfl⟩ := h
  exact (disc_append.1 d).1
end

theorem proj_take_succ {tr : Trace M X V} {k : Nat} {t : Nat} {a : Act M X V} (h : tr[k]? = some (t, a)) (u : Nat) :
    proj u (tr.take (k + 1)) = proj u (tr.take k) ++ (if t = u then [a] else []) := by
  rw [List.take_add_one, h]
  by_cases e : t = u <;> simp [proj, e]

theorem proj_split {tr : Trace M X V} {k : Nat} {t : Nat} {a : Act M X V} (h : tr[k]? = some (t, a)) :
    ∃ r, proj t tr = proj t (tr.take k) ++ a :: r := by
  refine ⟨proj t (tr.drop (k + 1)), ?_⟩
  have h1 : tr = tr.take (k + 1) ++ tr.drop (k + 1) := (List.take_append_drop _ _).symm
  have h2 : proj t tr = proj t (tr.take (k + 1)) ++ proj t (tr.drop (k + 1)) := by
    conv_lhs => rw [h1]
    simp only [proj, List.filter_append, List.map_append]
  rw [h2, proj_take_succ h]; simp

section
variable [DecidableEq M] (kind : X → Kind M) (ment : V → X → Prop)

/-- What goroutine `t` knows before the action at `k`. -/
def loc (tr : Trace M X V) (t k : Nat) : LSt M X := after kind ment LSt.init (proj t (tr.take k))

variable {kind ment}

theorem loc_succ {tr : Trace M X V} {k t : Nat} {a : Act M X V} (h : tr[k]? = some (t, a)) (u : Nat) :
    loc kind ment tr u (k + 1) = if t = u then next kind ment (loc kind ment tr u k) a else loc kind ment tr u k := by
  rw [loc, proj_take_succ h, after_append]
  by_cases e : t = u <;> simp [e, loc, after]

theorem disc_at {tr : Trace M X V} {k t : Nat} {a : Act M X V} (d : Disc kind ment LSt.init (proj t tr))
    (h : tr[k]? = some (t, a)) : allowed kind ment (loc kind ment tr t k) a := by
  obtain ⟨r, e⟩ := proj_split h
  rw [e] at d
  exact (disc_append.1 d).2.1
end

section
variable [DecidableEq M] [DecidableEq X] [DecidableEq V]

/-- The states along a trace. -/
structure Run (s0 : St M X V) (tr : Trace M X V) (S : Nat → St M X V) : Prop where
  zero : S 0 = s0
  step : ∀ k t a, tr[k]? = some (t, a) → (S k).step t a = some (S (k + 1))

theorem exec_run {s0 s : St M X V} {tr : Trace M X V} (h : exec s0 tr = some s) : ∃ S, Run s0 tr S := by
  induction tr generalizing s0 with
  | nil => exact ⟨fun _ => s0, rfl, by simp⟩
  | cons e tr ih =>
    obtain ⟨t, a⟩ := e
    simp only [exec, Option.bind_eq_some_iff] at h
    obtain ⟨s1, h1, h2⟩ := h
    obtain ⟨S, z, st⟩ := ih h2
    refine ⟨fun k => k.casesOn s0 S, rfl, ?_⟩
    intro k t' a' hk
    cases k with
    | zero =>
      simp only [List.getElem?_cons_zero, Option.some.injEq, Prod.mk.injEq] at hk
      obtain ⟨rfl, rfl⟩ := hk
      show s0.step t a = some (S 0)
      rw [z]; exact h1
    | succ k => exact st k t' a' (by simpa using hk)

theorem exec_of_run {s0 : St M X V} {tr : Trace M X V} {S : Nat → St M X V} (h : Run s0 tr S) :
    exec s0 tr = some (S tr.length) := by
  induction tr generalizing s0 S with
  | nil => simp [exec, h.zero]
  | cons e tr ih =>
    obtain ⟨t, a⟩ := e
    have h1 := h.step 0 t a (by simp)
    rw [h.zero] at h1
    have := ih (s0 := S 1) (S := fun k => S (k + 1)) ⟨rfl, fun k t a hk => h.step (k + 1) t a (by simpa using hk)⟩
    simp [exec, h1, this]

/-- Does `t` hold `m`, for writing or for reading? -/
def Holds (s : St M X V) (t : Nat) (m : M) : Bool → Prop
  | true => s.w m = some t
  | false => t ∈ s.r m

def acq (m : M) : Bool → Act M X V
  | true => .lock m
  | false => .rlock m

def rel (m : M) : Bool → Act M X V
  | true => .unlock m
  | false => .runlock m

omit [DecidableEq X] [DecidableEq V] in
theorem upd_same {A B : Type} [DecidableEq A] (f : A → B) (a : A) (b : B) : upd f a b a = b := by simp [upd]

/-- Only its own release ends a hold, only its own acquisition begins one. -/
theorem hold_step {s s' : St M X V} {t u : Nat} {a : Act M X V} {m : M} {b : Bool} (h : s.step t a = some s') :
    (Holds s u m b → ¬ Holds s' u m b → t = u ∧ a = rel m b) ∧
    (¬ Holds s u m b → Holds s' u m b → t = u ∧ a = acq m b) := by
  cases a with
  | lock m' =>
    simp only [St.step] at h
    split at h
    · rename_i hc
      cases h
      cases b <;> by_cases e : m = m' <;> simp_all [Holds, upd, acq, rel]
    · cases h
  | unlock m' =>
    simp only [St.step] at h
    split at h
    · cases h
      cases b <;> by_cases e : m = m' <;> simp_all [Holds, upd, acq, rel]
    · cases h
  | rlock m' =>
    simp only [St.step] at h
    split at h
    · cases h
      cases b <;> by_cases e : m = m' <;> simp_all [Holds, upd, acq, rel]
    · cases h
  | runlock m' =>
    simp only [St.step] at h
    split at h
    · cases h
      cases b <;> by_cases e : m = m' <;> simp_all [Holds, upd, acq, rel]
      constructor
      · intro h1 h2
        by_contra ne
        exact h2 ((List.mem_erase_of_ne (fun h => ne h.symm)).2 h1)
      · intro h1 h2; exact absurd (List.mem_of_mem_erase h2) h1
    · cases h
  | rd x v => simp only [St.step] at h; split at h <;> cases h; exact ⟨fun a b => absurd a b, fun a b => absurd b a⟩
  | wr x v =>
    simp only [St.step, Option.some.injEq] at h; subst h
    cases b <;> exact ⟨fun a b => absurd a b, fun a b => absurd b a⟩
  | aload x v => simp only [St.step] at h; split at h <;> cases h; exact ⟨fun a b => absurd a b, fun a b => absurd b a⟩
  | armw x v w =>
    simp only [St.step] at h; split at h <;> cases h
    cases b <;> exact ⟨fun a b => absurd a b, fun a b => absurd b a⟩
  | chan x => simp only [St.step, Option.some.injEq] at h; subst h; exact ⟨fun a b => absurd a b, fun a b => absurd b a⟩
  | go x => simp only [St.step, Option.some.injEq] at h; subst h; exact ⟨fun a b => absurd a b, fun a b => absurd b a⟩

end
end Gofer.Race
