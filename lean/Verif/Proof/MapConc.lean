import Verif.Model.MapConc
import Verif.Proof.Map
import Verif.Proof.Linear
/-! # `Map` and `MapL` under concurrent use: every call but `Len` takes effect at its operation on the `sync.Map` -/
namespace Gofer.MapConc
open Gofer.Map
open Gofer.Spec.Map (Op Res)
open Gofer.Spec.MapLin (OpL ResL)
open Gofer.Spec.Linear (Ev)

variable {n : Nat} {K V : Type} [DecidableEq K] [GoValue V]

/-- The methods done in one step on the map alone; `Len` is not one of them. -/
def ap : OpL K V → Map.Map K V → Map.Map K V × ResL V
  | .base op, t => ((t.step op).1, .base (t.step op).2)
  | .len, t => (t, .num 0)

def obj : Locked.Obj Unit (Map.Map K V) (OpL K V) (ResL V) Unit := Locked.atomic (fun _ => ()) (fun _ => false) ap

theorem impl : Locked.Impl (obj (K := K) (V := V)) ap := Locked.atomic_impl _ _ _ (by simp)

/-- The goroutine as one of an object under a mutex. -/
def abs : Pc K V → Locked.Pc (OpL K V) (ResL V) Unit
  | .idle => .idle
  | .wait id op => .wait id op
  | .add id op r _ => .out id op r
  | .out id op r => .out id op r

/-- The state as one of an object under a mutex. -/
def toLocked (s : St n K V) (log : List (Nat × OpL K V × ResL V)) : Locked.St n Unit (Map.Map K V) (OpL K V) (ResL V) Unit :=
  ⟨fun _ => ⟨s.m⟩, fun t => abs (s.pc t), s.next, s.hist, log⟩

theorem abs_holds (p : Pc K V) : (abs p).holds = none := by cases p <;> rfl

theorem mapOp_base (m : AMap K (Option V)) (len : Int) (op : Op K V) :
    ((⟨(mapOp m len (.base op)).1⟩ : Map.Map K V), (mapOp m len (.base op)).2.1) = ap (.base op) ⟨m⟩ := by
  cases op with
  | put k v => 
    simp only [mapOp, ap, Map.Map.step, Map.Map.put, AMap.swap]
    rcases m.load k with _ | _ | x <;> rfl
  | del k =>
    simp only [mapOp, ap, Map.Map.step, Map.Map.del, AMap.loadAndDelete]
    rcases m.load k with _ | x <;> rfl
  | get k =>
    simp only [mapOp, ap, Map.Map.step, Map.Map.get]
    rcases m.load k with _ | _ | x <;> rfl
  | has k => rfl

/-- No goroutine is in a `Len`. -/
def NoLen (s : St n K V) : Prop := ∀ t id, s.pc t ≠ .wait id .len

theorem sim_map {s s' : St n K V} {t : Fin n} {id : Nat} {op : Op K V} (hp : s.pc t = .wait id (.base op)) (log : List (Nat × OpL K V × ResL V))
    (hm : s'.m = (mapOp s.m s.len (.base op)).1) (hpc : ∀ i, abs (s'.pc i) = if i = t then .out id (.base op) (mapOp s.m s.len (.base op)).2.1 else abs (s.pc i))
    (hn : s'.next = s.next) (hh : s'.hist = s.hist) :
    ∃ log', Locked.exec obj (toLocked s log) [.lock t, .micro t, .unlock t] = some (toLocked s' log') := by
  have hfree : Locked.free obj (toLocked s log) (OpL.base op) = true := by
    simp only [Locked.free, List.all_eq_true]
    intro t' _
    simp [toLocked, abs_holds]
  have e := mapOp_base s.m s.len op
  refine ⟨log ++ [(id, .base op, (mapOp s.m s.len (.base op)).2.1)], ?_⟩
  have h1 : (toLocked s log).pc t = .wait id (.base op) := by simp [toLocked, hp, abs]
  simp only [Locked.exec, Locked.act, h1, hfree, if_true, Locked.setPc, Locked.setSt]
  simp only [obj, Locked.atomic]
  rw [show (toLocked s log).st () = (⟨s.m⟩ : Map.Map K V) from rfl, ← e]
  simp only [toLocked, hn, hh, hm, if_true, Option.some.injEq, Locked.St.mk.injEq, and_true, true_and]
  · funext i; rw [hpc]; by_cases hi : i = t <;> simp [hi]

theorem sim_act {counts : Bool} {s s' : St n K V} {a : Act n K V} (hl : NoLen s) (ha : ∀ t, a ≠ .call t .len) (h : act counts s a = some s')
    (log : List (Nat × OpL K V × ResL V)) :
    NoLen s' ∧ ∃ as log', Locked.exec obj (toLocked s log) as = some (toLocked s' log') := by
  cases a with
  | call t op =>
    cases hp : s.pc t <;> simp only [act, hp] at h <;> try cases h
    refine ⟨?_, [.call t op], log, ?_⟩
    · intro t' id hc
      simp only [setPc] at hc
      split at hc
      · cases hc; exact ha t rfl
      · exact hl t' id hc
    · simp only [Locked.exec, Locked.act, toLocked, hp, abs]
      simp only [Locked.setPc, setPc, Option.some.injEq, Locked.St.mk.injEq, and_true, true_and]
      funext i
      by_cases hi : i = t <;> simp [hi, abs]
  | map t =>
    cases hp : s.pc t with
    | wait id op =>
      cases op with
      | len => exact absurd hp (hl t id)
      | base op =>
        simp only [act, hp] at h
        have key : s'.m = (mapOp s.m s.len (.base op)).1 ∧ s'.next = s.next ∧ s'.hist = s.hist ∧
            ∃ p, s'.pc = (setPc s t p).pc ∧ abs p = .out id (.base op) (mapOp s.m s.len (.base op)).2.1 := by
          rcases hm : mapOp s.m s.len (.base op) with ⟨m, r, _ | d⟩
          · rw [hm] at h; cases h; exact ⟨rfl, rfl, rfl, _, rfl, rfl⟩
          · rw [hm] at h
            cases counts <;> cases h <;> exact ⟨rfl, rfl, rfl, _, rfl, rfl⟩
        obtain ⟨h1, h2, h3, p, h4, h5⟩ := key
        refine ⟨?_, _, sim_map hp log h1 ?_ h2 h3⟩
        · intro t' id' hc
          rw [h4] at hc
          simp only [setPc] at hc
          split at hc
          · rw [hc] at h5; cases h5
          · exact hl t' id' hc
        · intro i
          rw [h4]
          simp only [setPc]
          split
          · exact h5
          · rfl
    | _ => simp [act, hp] at h
  | add t =>
    cases hp : s.pc t <;> simp only [act, hp] at h <;> try cases h
    refine ⟨?_, [], log, ?_⟩
    · intro t' id hc
      simp only [setPc] at hc
      split at hc
      · cases hc
      · exact hl t' id hc
    · simp only [Locked.exec, toLocked, setPc, Option.some.injEq, Locked.St.mk.injEq, and_true, true_and]
      funext i
      by_cases hi : i = t <;> simp [hi, abs, hp]
  | ret t =>
    cases hp : s.pc t <;> simp only [act, hp] at h <;> try cases h
    refine ⟨?_, [.ret t], log, ?_⟩
    · intro t' id hc
      simp only [setPc] at hc
      split at hc
      · cases hc
      · exact hl t' id hc
    · simp only [Locked.exec, Locked.act, toLocked, hp, abs]
      simp only [Locked.setPc, setPc, Option.some.injEq, Locked.St.mk.injEq, and_true, true_and]
      funext i
      by_cases hi : i = t <;> simp [hi, abs]

theorem exec_append {ι S O R L : Type} [DecidableEq ι] {n : Nat} (o : Locked.Obj ι S O R L) : ∀ (as bs : List (Locked.Act n O)) (s s' : Locked.St n ι S O R L),
    Locked.exec o s as = some s' → Locked.exec o s (as ++ bs) = Locked.exec o s' bs := by
  intro as
  induction as with
  | nil => intro bs s s' h; simp [Locked.exec] at h; subst h; rfl
  | cons a as ih =>
    intro bs s s' h
    simp only [Locked.exec, List.cons_append] at h ⊢
    cases e : Locked.act o s a with
    | none => rw [e] at h; cases h
    | some s1 => rw [e] at h; exact ih bs s1 s' h

theorem sim_exec {counts : Bool} : ∀ {as : List (Act n K V)} {s s' : St n K V}, NoLen s → (∀ t, Act.call t .len ∉ as) → exec counts s as = some s' →
    ∀ log, ∃ bs log', Locked.exec obj (toLocked s log) bs = some (toLocked s' log') := by
  intro as
  induction as with
  | nil => intro s s' _ _ h log; simp [exec] at h; subst h; exact ⟨[], log, rfl⟩
  | cons a as ih =>
    intro s s' hl hn h log
    simp only [exec, Option.bind_eq_some_iff] at h
    obtain ⟨s1, h1, h2⟩ := h
    obtain ⟨hl1, b1, log1, e1⟩ := sim_act hl (fun t ht => hn t (by simp [ht])) h1 log
    obtain ⟨b2, log2, e2⟩ := ih hl1 (fun t ht => hn t (by simp [ht])) h2 log1
    exact ⟨b1 ++ b2, log2, by rw [exec_append _ _ _ _ _ e1]; exact e2⟩

theorem play_eq (os : List (OpL K V)) : ∀ t : Map.Map K V, Locked.play (fun _ => ()) ap (fun _ => t) os () = t.final (Spec.MapLin.bases os) := by
  induction os with
  | nil => intro t; rfl
  | cons o os ih =>
    intro t
    cases o with
    | base op => exact ih (t.step op).1
    | len => exact ih t

theorem ok_results (os : List (OpL K V)) (hn : OpL.len ∉ os) :
    Spec.MapLin.ok GoValue.zero GoValue.isNil os (Locked.results (fun _ => ()) ap (fun _ => Map.Map.new) os) := by
  refine ⟨Linear.results_length _ _ _ _, fun i op r h1 h2 => ?_⟩
  rw [Linear.results_get _ _ _ _ i op h1, play_eq] at h2
  injection h2 with h2
  subst h2
  cases op with
  | len => exact absurd (List.mem_of_getElem? h1) hn
  | base op =>
    have h := (map_run (t := (Map.Map.new : Map.Map K V)) (s := fun _ => none) (fun _ => rfl) (Spec.MapLin.bases (os.take i))).2
    simp only [ap, Spec.MapLin.answer, (map_step h op).1]

theorem inv_no_len {counts : Bool} : ∀ {as : List (Act n K V)} {s s' : St n K V}, (∀ t, Act.call t .len ∉ as) → (∀ i, Ev.inv i .len ∉ s.hist) →
    exec counts s as = some s' → ∀ i, Ev.inv i .len ∉ s'.hist := by
  intro as
  induction as with
  | nil => intro s s' _ h0 h; simp [exec] at h; subst h; exact h0
  | cons a as ih =>
    intro s s' hn h0 h
    simp only [exec, Option.bind_eq_some_iff] at h
    obtain ⟨s1, h1, h2⟩ := h
    refine ih (fun t ht => hn t (by simp [ht])) ?_ h2
    intro i hi
    cases a with
    | call t op =>
      cases hp : s.pc t <;> simp only [act, hp] at h1 <;> try cases h1
      rcases List.mem_append.1 hi with hi | hi
      · exact h0 i hi
      · simp at hi; obtain ⟨_, rfl⟩ := hi; exact hn t (by simp)
    | map t =>
      cases hp : s.pc t <;> simp only [act, hp] at h1 <;> try cases h1
      split at h1
      · split at h1 <;> cases h1 <;> exact h0 i hi
      · cases h1; exact h0 i hi
    | add t =>
      cases hp : s.pc t <;> simp only [act, hp] at h1 <;> try cases h1
      exact h0 i hi
    | ret t =>
      cases hp : s.pc t <;> simp only [act, hp] at h1 <;> try cases h1
      rcases List.mem_append.1 hi with hi | hi
      · exact h0 i hi
      · simp at hi

theorem linearizable {counts : Bool} {as : List (Act n K V)} {s : St n K V} (hn : ∀ t, Act.call t .len ∉ as) (h : exec counts St.init as = some s) :
    Spec.Linear.LinearizableTo (Spec.MapLin.ok GoValue.zero GoValue.isNil) s.hist := by
  obtain ⟨bs, log, e⟩ := sim_exec (s := St.init) (by intro t id hc; cases hc) hn h []
  have hl := Locked.linearizable impl (fun _ => Map.Map.new) bs _ e
  obtain ⟨L, h1, h2, h3, h4, h5⟩ := hl
  refine ⟨L, h1, h2, h3, ?_, h5⟩
  rw [h4]
  apply ok_results
  intro hc
  obtain ⟨x, hx, hx2⟩ := List.mem_map.1 hc
  have := h2 x hx
  rw [hx2] at this
  exact inv_no_len hn (by intro i hi; simp [St.init] at hi) h x.1 this

end Gofer.MapConc
