import Verif.Proof.LinkedConc
import Mathlib.Data.List.Nodup
import Mathlib.Data.List.FinRange
/-! # Lemmas about `LinkedHashMap` under concurrent use: executions -/
namespace Gofer.LinkedConc
open Gofer.LinkedHashMap
open Gofer.Spec.Recency (Op Res)
open Gofer.Spec.Linear (Ev)
open Gofer.Spec.Relaxed (Item Accepts Explained)
open Gofer.Spec.Assoc
open GoList

variable {K V : Type} [DecidableEq K]

theorem getElem?_snoc {α : Type} {l : List α} {x : α} {i : Nat} {y : α} (h : (l ++ [x])[i]? = some y) :
    l[i]? = some y ∨ (i = l.length ∧ x = y) := by
  rcases Nat.lt_trichotomy i l.length with h1 | h1 | h1
  · rw [List.getElem?_append_left h1] at h; exact .inl h
  · subst h1; rw [List.getElem?_append_right (Nat.le_refl _)] at h; simp at h; exact .inr ⟨rfl, h⟩
  · rw [List.getElem?_append_right (by omega), List.getElem?_eq_none (by simp; omega)] at h
    simp at h

/-- The calls in a list of items. -/
def ids (L : List (Item K V)) : List Nat := (L.filterMap Item.call?).map (fun x => x.1)

theorem ids_append (L N : List (Item K V)) : ids (L ++ N) = ids L ++ ids N := by simp [ids]

theorem mem_ids {L : List (Item K V)} {i : Nat} (h : i ∈ ids L) : ∃ op r, Item.call i op r ∈ L := by
  simp only [ids, List.mem_map, List.mem_filterMap] at h
  obtain ⟨⟨j, op, r⟩, ⟨x, hx, hc⟩, rfl⟩ := h
  cases x with
  | call i' op' r' => simp only [Item.call?, Option.some.injEq, Prod.mk.injEq] at hc; obtain ⟨rfl, rfl, rfl⟩ := hc; exact ⟨op', r', hx⟩
  | evict i' => simp [Item.call?] at hc

/-- What is known of the history and the items. -/
structure Base (h : List (Ev (Op K V) (Res K V))) (L : List (Item K V)) (next : Nat) : Prop where
  idlt : ∀ i op, Ev.inv i op ∈ h → i < next
  reslt : ∀ i r, Ev.res i r ∈ h → i < next
  loglt : ∀ x ∈ L, x.id < next
  nodup : (ids L).Nodup
  called : ∀ i op r, Item.call i op r ∈ L → Ev.inv i op ∈ h
  evicted : ∀ i, Item.evict i ∈ L → ∃ op r, Item.call i op r ∈ L
  returned : ∀ i r, Ev.res i r ∈ h → ∃ op, Item.call i op r ∈ L
  order : ∀ (a b i : Nat) (r : Res K V) (j : Nat) (op : Op K V), h[a]? = some (.res i r) → h[b]? = some (.inv j op) → a < b →
      ∀ (x y : Nat) (p q : Item K V), L[x]? = some p → L[y]? = some q → p.id = i → q.id = j → x < y

theorem Base.inv {h : List (Ev (Op K V) (Res K V))} {L : List (Item K V)} {next : Nat} (b : Base h L next) (op : Op K V) :
    Base (h ++ [.inv next op]) L (next + 1) where
  idlt i op' hi := by
    simp only [List.mem_append, List.mem_singleton, Ev.inv.injEq] at hi
    rcases hi with hi | ⟨rfl, _⟩
    · have := b.idlt i op' hi; omega
    · omega
  reslt i r hi := by
    simp only [List.mem_append, List.mem_singleton, reduceCtorEq, or_false] at hi
    have := b.reslt i r hi; omega
  loglt x hx := by have := b.loglt x hx; omega
  nodup := b.nodup
  called i op' r hi := List.mem_append_left _ (b.called i op' r hi)
  evicted := b.evicted
  returned i r hi := by
    simp only [List.mem_append, List.mem_singleton, reduceCtorEq, or_false] at hi
    exact b.returned i r hi
  order := by
    intro a c i r j op' ha hc hlt x y p q hp hq e1 e2
    rcases getElem?_snoc hc with hc | ⟨rfl, he⟩
    · rcases getElem?_snoc ha with ha | ⟨rfl, ha⟩
      · exact b.order a c i r j op' ha hc hlt x y p q hp hq e1 e2
      · simp at ha
    · injection he with he1 he2
      have := b.loglt q (List.mem_of_getElem? hq)
      omega

theorem Base.res {h : List (Ev (Op K V) (Res K V))} {L : List (Item K V)} {next : Nat} (b : Base h L next) {i : Nat} {op : Op K V} {r : Res K V}
    (hc : Item.call i op r ∈ L) : Base (h ++ [.res i r]) L next where
  idlt j op' hi := by
    simp only [List.mem_append, List.mem_singleton, reduceCtorEq, or_false] at hi
    exact b.idlt j op' hi
  reslt j r' hi := by
    simp only [List.mem_append, List.mem_singleton, Ev.res.injEq] at hi
    rcases hi with hi | ⟨rfl, _⟩
    · exact b.reslt j r' hi
    · exact b.loglt _ hc
  loglt := b.loglt
  nodup := b.nodup
  called j op' r' hi := List.mem_append_left _ (b.called j op' r' hi)
  evicted := b.evicted
  returned j r' hi := by
    simp only [List.mem_append, List.mem_singleton, Ev.res.injEq] at hi
    rcases hi with hi | ⟨rfl, rfl⟩
    · exact b.returned j r' hi
    · exact ⟨op, hc⟩
  order := by
    intro a c i' r' j op' ha hc' hlt x y p q hp hq e1 e2
    rcases getElem?_snoc hc' with hc' | ⟨rfl, he⟩
    · rcases getElem?_snoc ha with ha | ⟨rfl, ha⟩
      · exact b.order a c i' r' j op' ha hc' hlt x y p q hp hq e1 e2
      · have : c < h.length := by
          rcases Nat.lt_or_ge c h.length with h' | h'
          · exact h'
          · rw [List.getElem?_eq_none h'] at hc'; simp at hc'
        omega
    · simp at he

theorem Base.items {h : List (Ev (Op K V) (Res K V))} {L : List (Item K V)} {next : Nat} (b : Base h L next) (N : List (Item K V))
    (h1 : ∀ x ∈ N, x.id < next ∧ ∀ r, Ev.res x.id r ∉ h) (h2 : (ids N).Nodup) (h3 : ∀ i ∈ ids N, i ∉ ids L)
    (h4 : ∀ i op r, Item.call i op r ∈ N → Ev.inv i op ∈ h) (h5 : ∀ i, Item.evict i ∈ N → ∃ op r, Item.call i op r ∈ L) :
    Base h (L ++ N) next where
  idlt := b.idlt
  reslt := b.reslt
  loglt x hx := by
    rcases List.mem_append.1 hx with hx | hx
    · exact b.loglt x hx
    · exact (h1 x hx).1
  nodup := by
    rw [ids_append, List.nodup_append]
    refine ⟨b.nodup, h2, ?_⟩
    intro i hi j hj e
    subst e
    exact h3 i hj hi
  called i op r hi := by
    rcases List.mem_append.1 hi with hi | hi
    · exact b.called i op r hi
    · exact h4 i op r hi
  evicted i hi := by
    rcases List.mem_append.1 hi with hi | hi
    · obtain ⟨op, r, h⟩ := b.evicted i hi; exact ⟨op, r, List.mem_append_left _ h⟩
    · obtain ⟨op, r, h⟩ := h5 i hi; exact ⟨op, r, List.mem_append_left _ h⟩
  returned i r hi := by
    obtain ⟨op, h⟩ := b.returned i r hi
    exact ⟨op, List.mem_append_left _ h⟩
  order := by
    intro a c i r j op ha hc hlt x y p q hp hq e1 e2
    have hx : x < L.length := by
      rcases Nat.lt_or_ge x L.length with h' | h'
      · exact h'
      · rw [List.getElem?_append_right h'] at hp
        exact absurd (List.mem_of_getElem? ha) (e1 ▸ (h1 p (List.mem_of_getElem? hp)).2 r)
    rcases Nat.lt_or_ge y L.length with h' | h'
    · rw [List.getElem?_append_left hx] at hp
      rw [List.getElem?_append_left h'] at hq
      exact b.order a c i r j op ha hc hlt x y p q hp hq e1 e2
    · omega

/-- The call a goroutine is in. -/
def Pc.id? : Pc K V → Option Nat
  | .idle => none
  | .wait i _ => some i
  | .inn i _ _ => some i
  | .fin i _ _ => some i
  | .out i _ _ => some i
  | .g1 i _ => some i
  | .g2 i _ _ => some i

/-- The method a goroutine is inside, and where. -/
def Pc.inside : Pc K V → Option (Op K V × Loc)
  | .inn _ op l => some (op, l)
  | _ => none

variable {n : Nat}

/-- What is known of a goroutine. -/
def PcOk (zv : V) (s : St n K V) : Pc K V → Prop
  | .idle => True
  | .wait i op => Ev.inv i op ∈ s.hist ∧ notGet op ∧ ∀ x ∈ s.log, x.id ≠ i
  | .inn i op l => Ev.inv i op ∈ s.hist ∧ notGet op ∧
      match promise zv op l s.t with
      | some r => Item.call i op r ∈ s.log
      | none => ∀ x ∈ s.log, x.id ≠ i
  | .fin i op r => Item.call i op r ∈ s.log
  | .out i op r => Item.call i op r ∈ s.log
  | .g1 i k => Ev.inv i (.get k) ∈ s.hist ∧ ∀ x ∈ s.log, x.id ≠ i
  | .g2 i k g => Ev.inv i (.get k) ∈ s.hist ∧ g ≤ s.gen ∧ (g = s.gen → ∀ x ∈ s.log, x.id ≠ i) ∧
      (g < s.gen → Item.call i (.get k) (resVal zv (look s g k)) ∈ s.log)

/-- The container is what the items lead to. -/
def Sim (zk : K) (zv : V) (limit : Int) (s : St n K V) (a : List (K × V) × Bool) : Prop :=
  Accepts zk zv limit ([], false) s.log a ∧ s.t.limit = limit ∧ (∀ t o, (s.pc t).inside = some o → Mid o.1 o.2 s.t a) ∧
    ((∀ t, (s.pc t).inside = none) → LinkedHashMap.Inv s.t a.1 ∧ a.2 = false) ∧ ∀ k, get s.t k = find k a.1

/-- Invariant. -/
structure Inv (zk : K) (zv : V) (limit : Int) (s : St n K V) : Prop where
  base : Base s.hist s.log s.next
  pcid : ∀ t i, (s.pc t).id? = some i → i < s.next ∧ ∀ r, Ev.res i r ∉ s.hist
  dist : ∀ t t' i, (s.pc t).id? = some i → (s.pc t').id? = some i → t = t'
  excl : ∀ t t', (s.pc t).holds = true → (s.pc t').holds = true → t = t'
  ok : ∀ t, PcOk zv s (s.pc t)
  sim : ∃ a, Sim zk zv limit s a
  oldlt : ∀ g, g < s.gen → ∀ k e, (s.old g).load k = some e → e < s.t.list.fresh
  newlt : ∀ k e, s.t.m.load k = some e → e < s.t.list.fresh

theorem inv_init (zk : K) (zv : V) (limit : Int) : Inv zk zv limit (init limit : St n K V) where
  base := by constructor <;> simp [init, ids]
  pcid t i h := by simp [init, Pc.id?] at h
  dist t t' i h := by simp [init, Pc.id?] at h
  excl t t' h := by simp [init, Pc.holds] at h
  ok t := trivial
  sim := ⟨([], false), rfl, rfl, fun t o h => by simp [init, Pc.inside] at h, fun _ => ⟨inv_new limit, rfl⟩, fun k => get_spec (inv_new limit) k⟩
  oldlt g h := by simp [init] at h
  newlt k e h := by simp [init, LinkedHashMap.new, AMap.load, AMap.empty] at h

theorem Inv.explained {zk : K} {zv : V} {limit : Int} {s : St n K V} (h : Inv zk zv limit s) : Explained zk zv limit s.hist := by
  obtain ⟨a, ha⟩ := h.sim
  exact ⟨s.log, a, h.base.nodup, h.base.called, h.base.evicted, h.base.returned, ha.1, h.base.order⟩

theorem inside_holds {p : Pc K V} {o : Op K V × Loc} (h : p.inside = some o) : p.holds = true := by
  cases p <;> simp_all [Pc.inside, Pc.holds]

theorem setPc_same (s : St n K V) (t : Fin n) (p : Pc K V) : (setPc s t p).pc t = p := by simp [setPc]
theorem setPc_other (s : St n K V) {t i : Fin n} (p : Pc K V) (h : i ≠ t) : (setPc s t p).pc i = s.pc i := by simp [setPc, h]

/-- What others know stays. -/
theorem pcOk_frame {zv : V} {s s' : St n K V} {p : Pc K V} (h : PcOk zv s p) (N : List (Item K V)) (hh : ∀ x ∈ s.hist, x ∈ s'.hist)
    (hl : s'.log = s.log ++ N) (hn : ∀ i, p.id? = some i → ∀ x ∈ N, x.id ≠ i) (hg : s'.gen = s.gen)
    (ht : p.inside ≠ none → s'.t = s.t) (hk : ∀ g k, g < s.gen → look s' g k = look s g k) : PcOk zv s' p := by
  have no : ∀ i, p.id? = some i → (∀ x ∈ s.log, x.id ≠ i) → ∀ x ∈ s'.log, x.id ≠ i := by
    intro i hi h0 x hx
    rw [hl] at hx
    rcases List.mem_append.1 hx with hx | hx
    · exact h0 x hx
    · exact hn i hi x hx
  have up : ∀ x, x ∈ s.log → x ∈ s'.log := by intro x hx; rw [hl]; exact List.mem_append_left _ hx
  cases p with
  | idle => trivial
  | wait i op => exact ⟨hh _ h.1, h.2.1, no i rfl h.2.2⟩
  | inn i op l =>
    obtain ⟨h1, h2, h3⟩ := h
    refine ⟨hh _ h1, h2, ?_⟩
    rw [ht (by simp [Pc.inside])]
    cases hp : promise zv op l s.t with
    | none => rw [hp] at h3; exact no i rfl h3
    | some r => rw [hp] at h3; exact up _ h3
  | fin i op r => exact up _ h
  | out i op r => exact up _ h
  | g1 i k => exact ⟨hh _ h.1, no i rfl h.2⟩
  | g2 i k g =>
    obtain ⟨h1, h2, h3, h4⟩ := h
    refine ⟨hh _ h1, by omega, fun e => no i rfl (h3 (by omega)), fun e => ?_⟩
    rw [hk g k (by omega)]
    exact up _ (h4 (by omega))

/-- A step that only moves one goroutine outside of the container. -/
theorem sim_same {zk : K} {zv : V} {limit : Int} {s s' : St n K V} {a : List (K × V) × Bool} (h : Sim zk zv limit s a) (ht : s'.t = s.t)
    (hl : s'.log = s.log) (hp : ∀ i, (s'.pc i).inside = (s.pc i).inside) : Sim zk zv limit s' a := by
  obtain ⟨h1, h2, h3, h4, h5⟩ := h
  refine ⟨hl ▸ h1, ht ▸ h2, ?_, ?_, ht ▸ h5⟩
  · intro i o; rw [hp, ht]; exact h3 i o
  · intro hq; rw [ht]; exact h4 fun i => by rw [← hp]; exact hq i

theorem inside_set {s : St n K V} {t : Fin n} {p : Pc K V} (h : p.inside = (s.pc t).inside) (i : Fin n) :
    ((setPc s t p).pc i).inside = (s.pc i).inside := by
  by_cases e : i = t
  · subst e; rw [setPc_same, h]
  · rw [setPc_other _ _ e]

theorem mid_start {op : Op K V} {t : LHM K V} {a : List (K × V) × Bool} (h : LinkedHashMap.Inv t a.1 ∧ a.2 = false) : Mid op .start t a := by
  cases op <;> exact h

theorem promise_start (zv : V) (op : Op K V) (t : LHM K V) : promise zv op .start t = none := by
  cases op <;> rfl

theorem resVal_eq (zv : V) (o : Option V) : (resVal zv o : Res K V) = .val (o.getD zv) o.isSome := by cases o <;> rfl

theorem look_gen (s : St n K V) (k : K) : look s s.gen k = get s.t k := by
  unfold look LinkedHashMap.get
  rw [if_pos rfl]
  cases s.t.m.load k <;> rfl

theorem accepts_gets (zk : K) (zv : V) (limit : Int) (a : List (K × V) × Bool) (N : List (Item K V))
    (h : ∀ x ∈ N, ∃ i k, x = .call i (.get k) (resVal zv (find k a.1))) : Accepts zk zv limit a N a := by
  induction N with
  | nil => rfl
  | cons x N ih =>
    obtain ⟨i, k, rfl⟩ := h x (by simp)
    refine ⟨a, ?_, ih fun y hy => h y (by simp [hy])⟩
    rw [resVal_eq]; rfl

theorem mid_lt {op : Op K V} {l : Loc} {t : LHM K V} {a : List (K × V) × Bool} (h : Mid op l t a) (k' : K) (e : Nat)
    (he : t.m.load k' = some e) : e < t.list.fresh := by
  have hst : ∀ {t0 : LHM K V} {es0 : List (K × V)} (_ : LinkedHashMap.Inv t0 es0) (k : K),
      (t0.m.store k t0.list.fresh).load k' = some e → e < t0.list.fresh + 1 := by
    intro t0 es0 hi k h
    rw [AMap.load_store] at h
    split at h
    · injection h with h; omega
    · have := load_lt hi h; omega
  have hput : ∀ k v, PutMid k v l t a → e < t.list.fresh := by
    intro k v h
    cases l with
    | start => exact load_lt h.1 he
    | swap e' =>
      obtain ⟨t0, h1, _, rfl, _⟩ := h
      exact Nat.lt_succ_of_lt (load_lt h1 he)
    | drop e' =>
      obtain ⟨t0, es0, h1, _, rfl, rfl⟩ := h
      exact hst h1 k he
    | over =>
      obtain ⟨t0, es0, h1, h2, rfl, rfl⟩ := h
      exact hst h1 k he
    | unkey e' =>
      obtain ⟨t0, es0, h1, h2, _, _, rfl, rfl⟩ := h
      show e < ((pushed t0 k v).remove _).fresh
      rw [remove_fresh]
      exact hst h1 k he
  cases op with
  | put k v => exact hput k v h
  | loadOrStore k v => exact hput k v h
  | delete k =>
    cases l with
    | start => exact load_lt h.1 he
    | drop e' =>
      obtain ⟨t0, h1, _, _, rfl⟩ := h
      show e < (t0.list.remove e').fresh
      rw [remove_fresh]; exact load_lt h1 he
    | _ => exact h.elim
  | clear =>
    cases l with
    | start => exact load_lt h.1 he
    | over =>
      obtain ⟨t0, es0, h1, rfl, rfl⟩ := h
      simp [AMap.load, AMap.empty] at he
    | _ => exact h.elim
  | _ =>
    cases l with
    | start => exact load_lt h.1 he
    | _ => exact h.elim

/-- Moving one goroutine, outside of the container, with the history and the items as they are. -/
theorem inv_move {zk : K} {zv : V} {limit : Int} {s : St n K V} (h : Inv zk zv limit s) (t : Fin n) (p : Pc K V)
    (hid : p.id? = (s.pc t).id?) (hex : p.holds = true → (s.pc t).holds = true ∨ ∀ i, (s.pc i).holds = false)
    (hok : PcOk zv s p) (hsim : p.inside = (s.pc t).inside ∨ ∃ o, p.inside = some (o, .start) ∧ ∀ i, (s.pc i).holds = false) :
    Inv zk zv limit (setPc s t p) where
  base := h.base
  pcid i id hi := by
    by_cases e : i = t
    · subst e; rw [setPc_same, hid] at hi; exact h.pcid _ _ hi
    · rw [setPc_other _ _ e] at hi; exact h.pcid _ _ hi
  dist i j id hi hj := by
    have e : ∀ i, ((setPc s t p).pc i).id? = (s.pc i).id? := by
      intro i
      by_cases e : i = t
      · subst e; rw [setPc_same, hid]
      · rw [setPc_other _ _ e]
    rw [e] at hi hj
    exact h.dist i j id hi hj
  excl i j hi hj := by
    have e : ∀ i, ((setPc s t p).pc i).holds = true → (s.pc i).holds = true ∨ (i = t ∧ ∀ i, (s.pc i).holds = false) := by
      intro i hi
      by_cases e : i = t
      · subst e; rw [setPc_same] at hi
        rcases hex hi with h1 | h1
        · exact .inl h1
        · exact .inr ⟨rfl, h1⟩
      · rw [setPc_other _ _ e] at hi; exact .inl hi
    rcases e i hi with h1 | ⟨rfl, h1⟩ <;> rcases e j hj with h2 | ⟨rfl, h2⟩
    · exact h.excl i j h1 h2
    · rw [h2] at h1; simp at h1
    · rw [h1] at h2; simp at h2
    · rfl
  ok i := by
    have e : PcOk zv s ((setPc s t p).pc i) := by
      by_cases e : i = t
      · subst e; rw [setPc_same]; exact hok
      · rw [setPc_other _ _ e]; exact h.ok i
    exact pcOk_frame e [] (fun _ hx => hx) (List.append_nil _).symm (fun _ _ _ hx => nomatch hx) rfl (fun _ => rfl) (fun _ _ _ => rfl)
  sim := by
    obtain ⟨a, ha⟩ := h.sim
    rcases hsim with hs | ⟨o, ho, hq⟩
    · exact ⟨a, sim_same ha rfl rfl (inside_set hs)⟩
    · have no : ∀ i, (s.pc i).inside = none := by
        intro i
        cases hi : (s.pc i).inside with
        | none => rfl
        | some o => have := inside_holds hi; rw [hq i] at this; simp at this
      obtain ⟨h1, h2, h3, h4, h5⟩ := ha
      refine ⟨a, h1, h2, ?_, ?_, h5⟩
      · intro i o' hi
        by_cases e : i = t
        · subst e; rw [setPc_same, ho] at hi; injection hi with hi; subst hi; exact mid_start (h4 no)
        · rw [setPc_other _ _ e, no i] at hi; simp at hi
      · intro hq'
        have := hq' t
        rw [setPc_same, ho] at this; simp at this
  oldlt := h.oldlt
  newlt := h.newlt

theorem enter_id (id : Nat) (op : Op K V) : (enter id op).id? = some id := by cases op <;> rfl
theorem enter_holds (id : Nat) (op : Op K V) : (enter id op).holds = false := by cases op <;> rfl
theorem enter_inside (id : Nat) (op : Op K V) : (enter id op).inside = none := by cases op <;> rfl

theorem inv_call {zk : K} {zv : V} {limit : Int} {s : St n K V} (h : Inv zk zv limit s) (t : Fin n) (op : Op K V) (hp : s.pc t = .idle) :
    Inv zk zv limit { setPc s t (enter s.next op) with next := s.next + 1, hist := s.hist ++ [.inv s.next op] } where
  base := h.base.inv op
  pcid i id hi := by
    have hi : ((setPc s t (enter s.next op)).pc i).id? = some id := hi
    show id < s.next + 1 ∧ ∀ r, Ev.res id r ∉ s.hist ++ [.inv s.next op]
    simp only [List.mem_append, List.mem_singleton, reduceCtorEq, or_false]
    by_cases e : i = t
    · subst e; rw [setPc_same, enter_id] at hi; injection hi with hi; subst hi
      exact ⟨by omega, fun r hr => by have := h.base.reslt _ _ hr; omega⟩
    · rw [setPc_other _ _ e] at hi
      have := h.pcid _ _ hi
      exact ⟨by omega, this.2⟩
  dist i j id hi hj := by
    have hi : ((setPc s t (enter s.next op)).pc i).id? = some id := hi
    have hj : ((setPc s t (enter s.next op)).pc j).id? = some id := hj
    have e : ∀ i, ((setPc s t (enter s.next op)).pc i).id? = some id → (i = t ∧ id = s.next) ∨ ((s.pc i).id? = some id ∧ id < s.next) := by
      intro i hi
      by_cases e : i = t
      · subst e; rw [setPc_same, enter_id] at hi; injection hi with hi; exact .inl ⟨rfl, hi.symm⟩
      · rw [setPc_other _ _ e] at hi; exact .inr ⟨hi, (h.pcid _ _ hi).1⟩
    rcases e i hi with ⟨h1, h1'⟩ | ⟨h1, h1'⟩ <;> rcases e j hj with ⟨h2, h2'⟩ | ⟨h2, h2'⟩
    · rw [h1, h2]
    · omega
    · omega
    · exact h.dist i j id h1 h2
  excl i j hi hj := by
    have e : ∀ i, ((setPc s t (enter s.next op)).pc i).holds = true → (s.pc i).holds = true := by
      intro i hi
      by_cases e : i = t
      · subst e; rw [setPc_same, enter_holds] at hi; simp at hi
      · rw [setPc_other _ _ e] at hi; exact hi
    exact h.excl i j (e i hi) (e j hj)
  ok i := by
    show PcOk zv _ ((setPc s t (enter s.next op)).pc i)
    by_cases e : i = t
    · subst e; rw [setPc_same]
      have no : ∀ x ∈ s.log, x.id ≠ s.next := fun x hx => Nat.ne_of_lt (h.base.loglt x hx)
      have hin : Ev.inv s.next op ∈ s.hist ++ [.inv s.next op] := by simp
      cases op <;> first | exact ⟨hin, no⟩ | exact ⟨hin, trivial, no⟩
    · rw [setPc_other _ _ e]
      exact pcOk_frame (h.ok i) [] (fun _ hx => List.mem_append_left _ hx) (List.append_nil _).symm (fun _ _ _ hx => nomatch hx) rfl (fun _ => rfl)
        (fun _ _ _ => rfl)
  sim := by
    obtain ⟨a, ha⟩ := h.sim
    exact ⟨a, sim_same ha rfl rfl (inside_set (by rw [enter_inside, hp]; rfl))⟩
  oldlt := h.oldlt
  newlt := h.newlt

theorem inv_ret {zk : K} {zv : V} {limit : Int} {s : St n K V} (h : Inv zk zv limit s) (t : Fin n) {id : Nat} {op : Op K V} {r : Res K V}
    (hp : s.pc t = .out id op r) : Inv zk zv limit { setPc s t .idle with hist := s.hist ++ [.res id r] } where
  base := by
    have := h.ok t; rw [hp] at this
    exact h.base.res this
  pcid i j hi := by
    have hi : ((setPc s t .idle).pc i).id? = some j := hi
    show j < s.next ∧ ∀ r', Ev.res j r' ∉ s.hist ++ [.res id r]
    by_cases e : i = t
    · subst e; rw [setPc_same] at hi; simp [Pc.id?] at hi
    · rw [setPc_other _ _ e] at hi
      refine ⟨(h.pcid _ _ hi).1, fun r' hr => ?_⟩
      simp only [List.mem_append, List.mem_singleton, Ev.res.injEq] at hr
      rcases hr with hr | ⟨e1, _⟩
      · exact (h.pcid _ _ hi).2 _ hr
      · exact e (h.dist i t j hi (by rw [hp, e1]; rfl))
  dist i j id' hi hj := by
    have e : ∀ i, ((setPc s t .idle).pc i).id? = some id' → (s.pc i).id? = some id' := by
      intro i hi
      by_cases e : i = t
      · subst e; rw [setPc_same] at hi; simp [Pc.id?] at hi
      · rw [setPc_other _ _ e] at hi; exact hi
    exact h.dist i j id' (e i hi) (e j hj)
  excl i j hi hj := by
    have e : ∀ i, ((setPc s t .idle).pc i).holds = true → (s.pc i).holds = true := by
      intro i hi
      by_cases e : i = t
      · subst e; rw [setPc_same] at hi; simp [Pc.holds] at hi
      · rw [setPc_other _ _ e] at hi; exact hi
    exact h.excl i j (e i hi) (e j hj)
  ok i := by
    show PcOk zv _ ((setPc s t .idle).pc i)
    by_cases e : i = t
    · subst e; rw [setPc_same]; trivial
    · rw [setPc_other _ _ e]
      exact pcOk_frame (h.ok i) [] (fun _ hx => List.mem_append_left _ hx) (List.append_nil _).symm (fun _ _ _ hx => nomatch hx) rfl (fun _ => rfl)
        (fun _ _ _ => rfl)
  sim := by
    obtain ⟨a, ha⟩ := h.sim
    exact ⟨a, sim_same ha rfl rfl (inside_set (by rw [hp]; rfl))⟩
  oldlt := h.oldlt
  newlt := h.newlt

/-- The items that are added belong to calls in progress and are the first of them. -/
theorem one_nodup {i : Nat} {op : Op K V} {r : Res K V} : (ids [Item.call i op r]).Nodup := by simp [ids, Item.call?]

theorem not_ids {L : List (Item K V)} {i : Nat} (h : ∀ x ∈ L, x.id ≠ i) : i ∉ ids L := by
  intro hi
  obtain ⟨op, r, hx⟩ := mem_ids hi
  exact h _ hx rfl

theorem inv_load {zk : K} {zv : V} {limit : Int} {s : St n K V} (h : Inv zk zv limit s) (t : Fin n) {id g : Nat} {k : K}
    (hp : s.pc t = .g2 id k g) :
    Inv zk zv limit { setPc s t (.out id (.get k) (resVal zv (look s g k))) with
        log := if g = s.gen then s.log ++ [.call id (.get k) (resVal zv (look s g k))] else s.log } := by
  have hok := h.ok t
  rw [hp] at hok
  obtain ⟨h1, h2, h3, h4⟩ := hok
  by_cases hg : g = s.gen
  · subst hg
    rw [if_pos rfl]
    have hid := h.pcid t id (by rw [hp]; rfl)
    have hsame : ∀ i, ((setPc s t (.out id (.get k) (resVal zv (look s s.gen k)))).pc i).id? = (s.pc i).id? := by
      intro i
      by_cases e : i = t
      · subst e; rw [setPc_same, hp]; rfl
      · rw [setPc_other _ _ e]
    have hhold : ∀ i, ((setPc s t (.out id (.get k) (resVal zv (look s s.gen k)))).pc i).holds = (s.pc i).holds := by
      intro i
      by_cases e : i = t
      · subst e; rw [setPc_same, hp]; rfl
      · rw [setPc_other _ _ e]
    exact {
      base := by
        refine h.base.items _ ?_ one_nodup ?_ ?_ ?_
        · intro x hx; simp only [List.mem_singleton] at hx; subst hx; exact hid
        · intro i hi; simp only [ids, Item.call?, List.filterMap_cons, List.filterMap_nil, List.map_cons, List.map_nil, List.mem_singleton] at hi
          subst hi; exact not_ids (h3 rfl)
        · intro i op r hi; simp only [List.mem_singleton, Item.call.injEq] at hi; obtain ⟨rfl, rfl, _⟩ := hi; exact h1
        · intro i hi; simp at hi
      pcid := fun i j hi => h.pcid i j (by rw [← hsame]; exact hi)
      dist := fun i j id' hi hj => h.dist i j id' (by rw [← hsame]; exact hi) (by rw [← hsame]; exact hj)
      excl := fun i j hi hj => h.excl i j (by rw [← hhold]; exact hi) (by rw [← hhold]; exact hj)
      ok := by
        intro i
        show PcOk zv _ ((setPc s t _).pc i)
        by_cases e : i = t
        · subst e; rw [setPc_same]
          show _ ∈ s.log ++ _
          simp
        · rw [setPc_other _ _ e]
          refine pcOk_frame (h.ok i) _ (fun _ hx => hx) rfl ?_ rfl (fun _ => rfl) (fun _ _ _ => rfl)
          intro j hj x hx e'
          simp only [List.mem_singleton] at hx; subst hx
          have e' : id = j := e'
          subst e'
          exact e (h.dist i t id hj (by rw [hp]; rfl))
      sim := by
        obtain ⟨a, ha⟩ := h.sim
        obtain ⟨a1, a2, a3, a4, a5⟩ := ha
        have hin := inside_set (s := s) (t := t) (p := .out id (.get k) (resVal zv (look s s.gen k))) (by rw [hp]; rfl)
        refine ⟨a, ?_, a2, ?_, ?_, a5⟩
        · refine accepts_append _ _ _ _ _ _ _ _ a1 (accepts_gets _ _ _ _ _ ?_)
          intro x hx
          simp only [List.mem_singleton] at hx; subst hx
          exact ⟨id, k, by rw [look_gen, a5]⟩
        · intro i o hi; exact a3 i o (by rw [← hin]; exact hi)
        · intro hq; exact a4 fun i => by rw [← hin]; exact hq i
      oldlt := h.oldlt
      newlt := h.newlt }
  · rw [if_neg hg]
    have hlt : g < s.gen := by omega
    have := inv_move h t (.out id (.get k) (resVal zv (look s g k))) (by rw [hp]; rfl) (by simp [Pc.holds]) (h4 hlt) (.inl (by rw [hp]; rfl))
    exact this

theorem mem_pending {zv : V} {s : St n K V} {x : Item K V} (h : x ∈ pending zv s) :
    ∃ t id k, s.pc t = .g2 id k s.gen ∧ x = .call id (.get k) (resVal zv (get s.t k)) := by
  simp only [pending, List.mem_filterMap, List.mem_finRange, true_and] at h
  obtain ⟨t, h⟩ := h
  split at h
  · next id k g hp =>
    split at h
    · next e => subst e; simp only [Option.some.injEq] at h; exact ⟨t, id, k, hp, h.symm⟩
    · simp at h
  · simp at h

theorem pending_mem {zv : V} {s : St n K V} {t : Fin n} {id : Nat} {k : K} (h : s.pc t = .g2 id k s.gen) :
    Item.call id (.get k) (resVal zv (get s.t k)) ∈ pending zv s := by
  simp only [pending, List.mem_filterMap, List.mem_finRange, true_and]
  exact ⟨t, by rw [h]; simp⟩

theorem pending_nodup {zk : K} {zv : V} {limit : Int} {s : St n K V} (h : Inv zk zv limit s) : (ids (pending zv s)).Nodup := by
  have : ids (pending zv s) = (List.finRange n).filterMap fun t =>
      match s.pc t with
      | .g2 id _ g => if g = s.gen then some id else none
      | _ => none := by
    unfold ids pending
    rw [List.filterMap_filterMap, List.map_filterMap]
    congr 1
    funext t
    cases s.pc t with
    | g2 id k g => by_cases e : g = s.gen <;> simp [e, Item.call?]
    | _ => rfl
  rw [this]
  refine List.Nodup.filterMap ?_ (List.nodup_finRange n)
  have key : ∀ t b, (match s.pc t with
      | .g2 id _ g => if g = s.gen then some id else none
      | _ => none) = some b → (s.pc t).id? = some b := by
    intro t b hb
    cases hp : s.pc t with
    | g2 id k g =>
      rw [hp] at hb
      simp only at hb
      split at hb
      · exact hb
      · simp at hb
    | _ => rw [hp] at hb; simp at hb
  intro t t' b hb hb'
  exact h.dist t t' b (key t b hb) (key t' b hb')

theorem mark_id (zk : K) (zv : V) (id : Nat) (op : Op K V) (l : Loc) (t : LHM K V) : ∀ x ∈ mark zk zv id op l t, x.id = id := by
  intro x hx
  unfold mark at hx
  split at hx <;> first
    | (simp only [List.mem_singleton] at hx; subst hx; rfl)
    | (simp at hx; done)
    | (split at hx
       · simp at hx
       · simp only [List.mem_singleton] at hx; subst hx; rfl)

/-- The goroutine after a step inside. -/
def next (id : Nat) (op : Op K V) : Loc ⊕ Res K V → Pc K V
  | .inl l => .inn id op l
  | .inr r => .fin id op r

theorem next_id (id : Nat) (op : Op K V) (z : Loc ⊕ Res K V) : (next id op z).id? = some id := by cases z <;> rfl
theorem next_holds (id : Nat) (op : Op K V) (z : Loc ⊕ Res K V) : (next id op z).holds = true := by cases z <;> rfl

/-- A step inside the mutex, with items `P` of other calls before its own. -/
theorem inv_micro {zk : K} {zv : V} {limit : Int} {s s' : St n K V} (h : Inv zk zv limit s) (t : Fin n) {id : Nat} {op : Op K V} {l : Loc}
    (hp : s.pc t = .inn id op l) (P : List (Item K V)) (e1 : s'.t = (lstep zk zv op l s.t).1)
    (e2 : s'.pc = (setPc s t (next id op (lstep zk zv op l s.t).2)).pc) (e3 : s'.next = s.next) (e4 : s'.hist = s.hist)
    (e5 : s'.log = s.log ++ (P ++ mark zk zv id op l s.t))
    (hP : ∀ x ∈ P, ∃ t' id' k, s.pc t' = .g2 id' k s.gen ∧ x = .call id' (.get k) (resVal zv (get s.t k))) (hPn : (ids P).Nodup)
    (hrest : ∀ i, i ≠ t → PcOk zv s' (s.pc i))
    (hold : ∀ g, g < s'.gen → ∀ k e, (s'.old g).load k = some e → e < s.t.list.fresh) : Inv zk zv limit s' := by
  obtain ⟨a, ha⟩ := h.sim
  obtain ⟨a1, a2, a3, a4, a5⟩ := ha
  have hmid : Mid op l s.t a := a3 t (op, l) (by rw [hp]; rfl)
  have hok := h.ok t
  rw [hp] at hok
  obtain ⟨o1, o2, o3⟩ := hok
  obtain ⟨a', m1, m2, m3⟩ := micro_sim zk zv limit id hmid o2 a2
  have mp := mark_promise zk zv id hmid o2
  have hid := h.pcid t id (by rw [hp]; rfl)
  have hval := lstep_val zk zv op l s.t
  have hids : ∀ i, ((setPc s t (next id op (lstep zk zv op l s.t).2)).pc i).id? = (s.pc i).id? := by
    intro i
    by_cases e : i = t
    · subst e; rw [setPc_same, hp, next_id]; rfl
    · rw [setPc_other _ _ e]
  have hhold : ∀ i, ((setPc s t (next id op (lstep zk zv op l s.t).2)).pc i).holds = (s.pc i).holds := by
    intro i
    by_cases e : i = t
    · subst e; rw [setPc_same, hp, next_holds]; rfl
    · rw [setPc_other _ _ e]
  have hPid : ∀ x ∈ P, x.id ≠ id := by
    intro x hx e
    obtain ⟨t', id', k, hg, rfl⟩ := hP x hx
    have e : id' = id := e
    subst e
    have := h.dist t t' id' (by rw [hp]; rfl) (by rw [hg]; rfl)
    subst this
    rw [hp] at hg; simp at hg
  -- the items of this call
  have hmk : (mark zk zv id op l s.t = [] ∨ (∃ r, mark zk zv id op l s.t = [.call id op r] ∧ ∀ x ∈ s.log, x.id ≠ id) ∨
      ((∀ x ∈ mark zk zv id op l s.t, x = .evict id) ∧ ∃ r, Item.call id op r ∈ s.log)) := by
    cases hpr : promise zv op l s.t with
    | some r => rw [hpr] at mp o3; exact .inr (.inr ⟨mp.1, r, o3⟩)
    | none =>
      rw [hpr] at mp o3
      rcases mp with ⟨mp, _⟩ | ⟨r, mp, _⟩
      · exact .inl mp
      · exact .inr (.inl ⟨r, mp, o3⟩)
  have hnone : ∀ i, i ≠ t → (s.pc i).inside = none := by
    intro i hi
    cases hin : (s.pc i).inside with
    | none => rfl
    | some o => exact absurd (h.excl i t (inside_holds hin) (by rw [hp]; rfl)) hi
  have hpc : s'.pc t = next id op (lstep zk zv op l s.t).2 := by rw [e2, setPc_same]
  have hpc' : ∀ i, i ≠ t → s'.pc i = s.pc i := by intro i hi; rw [e2, setPc_other _ _ hi]
  have hsim : Sim zk zv limit s' a' := by
    have hin : ∀ i, i ≠ t → (s'.pc i).inside = none := by intro i hi; rw [hpc' i hi]; exact hnone i hi
    refine ⟨?_, by rw [e1]; exact m3, ?_, ?_, ?_⟩
    · rw [e5]
      refine accepts_append _ _ _ _ _ _ _ _ a1 (accepts_append _ _ _ _ _ _ _ _ (accepts_gets _ _ _ _ _ ?_) m1)
      intro x hx
      obtain ⟨_, id', k, _, rfl⟩ := hP x hx
      exact ⟨id', k, by rw [a5]⟩
    · intro i o hi
      by_cases e : i = t
      · subst e
        rw [hpc] at hi
        rcases hz : (lstep zk zv op l s.t).2 with l' | r
        · rw [hz] at hi m2
          simp only [next, Pc.inside, Option.some.injEq] at hi
          subst hi
          rw [e1]; exact m2
        · rw [hz] at hi; simp [next, Pc.inside] at hi
      · rw [hin i e] at hi; simp at hi
    · intro hq
      have := hq t
      rw [hpc] at this
      rcases hz : (lstep zk zv op l s.t).2 with l' | r
      · rw [hz] at this; simp [next, Pc.inside] at this
      · rw [hz] at m2; rw [e1]; exact m2
    · intro k
      rw [e1]
      rcases hz : (lstep zk zv op l s.t).2 with l' | r
      · rw [hz] at m2; exact mid_view m2 k
      · rw [hz] at m2; exact get_spec m2.1 k
  exact {
    base := by
      rw [e3, e4, e5]
      refine h.base.items _ ?_ ?_ ?_ ?_ ?_
      · intro x hx
        rcases List.mem_append.1 hx with hx | hx
        · obtain ⟨t', id', k, hg, rfl⟩ := hP x hx
          exact h.pcid t' id' (by rw [hg]; rfl)
        · rw [mark_id _ _ _ _ _ _ x hx]; exact hid
      · rw [ids_append, List.nodup_append]
        refine ⟨hPn, ?_, ?_⟩
        · rcases hmk with hm | ⟨r, hm, _⟩ | ⟨hm, _⟩
          · rw [hm]; simp [ids]
          · rw [hm]; exact one_nodup
          · have : ids (mark zk zv id op l s.t) = [] := by
              refine List.eq_nil_iff_forall_not_mem.2 fun i hi => ?_
              obtain ⟨op', r, hx⟩ := mem_ids hi
              have := hm _ hx; simp at this
            rw [this]; exact List.nodup_nil
        · intro i hi j hj e
          subst e
          obtain ⟨op1, r1, hx⟩ := mem_ids hi
          obtain ⟨op2, r2, hy⟩ := mem_ids hj
          exact hPid _ hx (show i = id from mark_id _ _ _ _ _ _ _ hy)
      · intro i hi hL
        rw [ids_append] at hi
        rcases List.mem_append.1 hi with hi | hi
        · obtain ⟨op1, r1, hx⟩ := mem_ids hi
          obtain ⟨t', id', k, hg, he⟩ := hP _ hx
          injection he with he1 he2 he3
          have hok' := h.ok t'
          rw [hg] at hok'
          subst he1
          exact not_ids (hok'.2.2.1 rfl) hL
        · obtain ⟨op1, r1, hx⟩ := mem_ids hi
          rcases hmk with hm | ⟨r, hm, hno⟩ | ⟨hm, _⟩
          · rw [hm] at hx; simp at hx
          · have := mark_id _ _ _ _ _ _ _ hx
            have this : i = id := this
            subst this
            exact not_ids hno hL
          · have := hm _ hx; simp at this
      · intro i op' r hi
        rcases List.mem_append.1 hi with hi | hi
        · obtain ⟨t', id', k, hg, he⟩ := hP _ hi
          injection he with he1 he2 he3
          have hok' := h.ok t'
          rw [hg] at hok'
          rw [he1, he2]; exact hok'.1
        · rcases hmk with hm | ⟨r', hm, hno⟩ | ⟨hm, _⟩
          · rw [hm] at hi; simp at hi
          · rw [hm] at hi; simp only [List.mem_singleton, Item.call.injEq] at hi
            rw [hi.1, hi.2.1]; exact o1
          · have := hm _ hi; simp at this
      · intro i hi
        rcases List.mem_append.1 hi with hi | hi
        · obtain ⟨t', id', k, hg, he⟩ := hP _ hi
          simp at he
        · rcases hmk with hm | ⟨r', hm, hno⟩ | ⟨hm, r', hc⟩
          · rw [hm] at hi; simp at hi
          · rw [hm] at hi; simp at hi
          · have := hm _ hi
            injection this with this
            subst this
            exact ⟨op, r', hc⟩
    pcid := fun i j hi => by
      rw [e2, hids] at hi
      rw [e3, e4]; exact h.pcid i j hi
    dist := fun i j id' hi hj => by
      rw [e2, hids] at hi hj
      exact h.dist i j id' hi hj
    excl := fun i j hi hj => by
      rw [e2, hhold] at hi hj
      exact h.excl i j hi hj
    ok := by
      intro i
      by_cases e : i = t
      · subst e
        rw [hpc]
        have own : ∀ r, mark zk zv id op l s.t = [.call id op r] → Item.call id op r ∈ s'.log := by
          intro r hr; rw [e5, hr]; simp
        have keep : ∀ r, Item.call id op r ∈ s.log → Item.call id op r ∈ s'.log := by
          intro r hr; rw [e5]; exact List.mem_append_left _ hr
        rcases hz : (lstep zk zv op l s.t).2 with l' | r
        · refine ⟨by rw [e4]; exact o1, o2, ?_⟩
          cases hpr : promise zv op l s.t with
          | some r =>
            rw [hpr, hz] at mp; rw [hpr] at o3
            have := mp.2
            simp only at this
            rw [e1, this]; exact keep r o3
          | none =>
            rw [hpr, hz] at mp; rw [hpr] at o3
            rcases mp with ⟨mp, mq⟩ | ⟨r, mp, mq⟩
            · simp only at mq
              rw [e1, mq]
              intro x hx
              rw [e5, mp, List.append_nil] at hx
              rcases List.mem_append.1 hx with hx | hx
              · exact o3 x hx
              · exact hPid x hx
            · simp only at mq
              rw [e1, mq]; exact own r mp
        · show Item.call id op r ∈ s'.log
          cases hpr : promise zv op l s.t with
          | some r' =>
            rw [hpr, hz] at mp; rw [hpr] at o3
            have := mp.2
            simp only at this
            subst this; exact keep r o3
          | none =>
            rw [hpr, hz] at mp
            rcases mp with ⟨_, mq⟩ | ⟨r', mp, mq⟩
            · exact mq.elim
            · simp only at mq
              subst mq; exact own r mp
      · rw [hpc' i e]; exact hrest i e
    sim := ⟨a', hsim⟩
    oldlt := fun g hg k e he => by
      rw [e1]; exact Nat.lt_of_lt_of_le (hold g hg k e he) hval.2
    newlt := fun k e he => by
      rcases hz : (lstep zk zv op l s.t).2 with l' | r
      · rw [hz] at m2; rw [e1] at he ⊢; exact mid_lt m2 k e he
      · rw [hz] at m2; rw [e1] at he ⊢; exact load_lt m2.1 he }

theorem inv_micro_act {zk : K} {zv : V} {limit : Int} {s s' : St n K V} (h : Inv zk zv limit s) (t : Fin n)
    (ha : act zk zv s (.micro t) = some s') : Inv zk zv limit s' := by
  cases hp : s.pc t with
  | inn id op l =>
    have hval := lstep_val zk zv op l s.t
    have hnx : (match (lstep zk zv op l s.t).2 with
        | .inl l' => Pc.inn id op l'
        | .inr r => Pc.fin id op r) = next id op (lstep zk zv op l s.t).2 := by
      cases (lstep zk zv op l s.t).2 <;> rfl
    have hothers : ∀ i, i ≠ t → (s.pc i).inside = none := by
      intro i hi
      cases hin : (s.pc i).inside with
      | none => rfl
      | some o => exact absurd (h.excl i t (inside_holds hin) (by rw [hp]; rfl)) hi
    simp only [act, hp] at ha
    split at ha
    · next hr =>
      injection ha with ha
      subst ha
      refine inv_micro h t hp (pending zv s) rfl rfl rfl rfl rfl (fun x hx => mem_pending hx) (pending_nodup h) ?_ ?_
      · intro i hi
        have hoki := h.ok i
        have hno := hothers i hi
        have hst : ∀ k g, g < s.gen → ∀ (s1 : St n K V), s1.t = (lstep zk zv op l s.t).1 → s1.gen = s.gen + 1 →
            (s1.old = fun g => if g = s.gen then s.t.m else s.old g) → look s1 g k = look s g k := by
          intro k g hg s1 q1 q2 q3
          unfold look
          rw [q1, q2, q3, if_neg (by omega), if_neg (by omega)]
          simp only [if_neg (Nat.ne_of_lt hg)]
          cases ho : (s.old g).load k with
          | none => rfl
          | some e => simp only; rw [hval.1 e (h.oldlt g hg k e ho)]
        have hnew : ∀ k, ∀ (s1 : St n K V), s1.t = (lstep zk zv op l s.t).1 → s1.gen = s.gen + 1 →
            (s1.old = fun g => if g = s.gen then s.t.m else s.old g) → look s1 s.gen k = get s.t k := by
          intro k s1 q1 q2 q3
          unfold look LinkedHashMap.get
          rw [q1, q2, q3, if_neg (by omega)]
          simp only [if_pos]
          cases ho : s.t.m.load k with
          | none => rfl
          | some e => simp only; rw [hval.1 e (h.newlt k e ho)]
        have hmk : ∀ j, (s.pc i).id? = some j → ∀ x ∈ mark zk zv id op l s.t, x.id ≠ j := by
          intro j hj x hx e
          rw [mark_id _ _ _ _ _ _ x hx] at e
          subst e
          exact hi (h.dist i t id hj (by rw [hp]; rfl))
        have hpd : ∀ j, (s.pc i).id? = some j → (∀ k, s.pc i ≠ .g2 j k s.gen) → ∀ x ∈ pending zv s, x.id ≠ j := by
          intro j hj hng x hx e
          obtain ⟨t', id', k, hg, rfl⟩ := mem_pending hx
          have e : id' = j := e
          subst e
          have := h.dist i t' id' hj (by rw [hg]; rfl)
          subst this
          exact hng k hg
        have noit : ∀ j, (s.pc i).id? = some j → (∀ k, s.pc i ≠ .g2 j k s.gen) → (∀ x ∈ s.log, x.id ≠ j) →
            ∀ x ∈ s.log ++ (pending zv s ++ mark zk zv id op l s.t), x.id ≠ j := by
          intro j hj hng h0 x hx
          rcases List.mem_append.1 hx with hx | hx
          · exact h0 x hx
          · rcases List.mem_append.1 hx with hx | hx
            · exact hpd j hj hng x hx
            · exact hmk j hj x hx
        cases hq : s.pc i with
        | idle => trivial
        | wait j op' =>
          rw [hq] at hoki
          exact ⟨hoki.1, hoki.2.1, noit j (by rw [hq]; rfl) (by rw [hq]; simp) hoki.2.2⟩
        | inn j op' l' => rw [hq] at hno; simp [Pc.inside] at hno
        | fin j op' r => rw [hq] at hoki; exact List.mem_append_left _ hoki
        | out j op' r => rw [hq] at hoki; exact List.mem_append_left _ hoki
        | g1 j k => rw [hq] at hoki; exact ⟨hoki.1, noit j (by rw [hq]; rfl) (by rw [hq]; simp) hoki.2⟩
        | g2 j k g =>
          rw [hq] at hoki
          obtain ⟨q1, q2, q3, q4⟩ := hoki
          refine ⟨q1, Nat.le_succ_of_le q2, ?_, ?_⟩
          · intro e
            have e : g = s.gen + 1 := e
            omega
          · intro _
            rcases Nat.lt_or_eq_of_le q2 with hlt | heq
            · rw [hst k g hlt _ rfl rfl rfl]
              exact List.mem_append_left _ (q4 hlt)
            · subst heq
              rw [hnew k _ rfl rfl rfl]
              exact List.mem_append_right _ (List.mem_append_left _ (pending_mem hq))
      · intro g hg k e he
        have hg : g < s.gen + 1 := hg
        have he : (if g = s.gen then s.t.m else s.old g).load k = some e := he
        by_cases hgg : g = s.gen
        · rw [if_pos hgg] at he; exact h.newlt k e he
        · rw [if_neg hgg] at he; exact h.oldlt g (by omega) k e he
    · next hr =>
      injection ha with ha
      subst ha
      refine inv_micro h t hp [] rfl rfl rfl rfl rfl (fun x hx => nomatch hx) (by simp [ids]) ?_ ?_
      · intro i hi
        refine pcOk_frame (h.ok i) (mark zk zv id op l s.t) (fun _ hx => hx) rfl ?_ rfl ?_ ?_
        · intro j hj x hx e
          rw [mark_id _ _ _ _ _ _ x hx] at e
          subst e
          exact hi (h.dist i t id hj (by rw [hp]; rfl))
        · intro hin; exact absurd (hothers i hi) hin
        · intro g k hg
          have hne : g ≠ s.gen := by omega
          show (match (if g = s.gen then _ else s.old g).load k with
            | some e => ((lstep zk zv op l s.t).1.list.val e).map Prod.snd
            | none => none) = look s g k
          unfold look
          rw [if_neg hne, if_neg hne]
          cases ho : (s.old g).load k with
          | none => rfl
          | some e => simp only; rw [hval.1 e (h.oldlt g hg k e ho)]
      · exact h.oldlt
  | _ => simp [act, hp] at ha

theorem inv_act {zk : K} {zv : V} {limit : Int} {s s' : St n K V} (h : Inv zk zv limit s) (x : Act n K V)
    (ha : act zk zv s x = some s') : Inv zk zv limit s' := by
  cases x with
  | micro t => exact inv_micro_act h t ha
  | call t op =>
    cases hp : s.pc t with
    | idle => simp only [act, hp, Option.some.injEq] at ha; subst ha; exact inv_call h t op hp
    | _ => simp [act, hp] at ha
  | lock t =>
    cases hp : s.pc t with
    | wait id op =>
      simp only [act, hp] at ha
      split at ha
      · next hf =>
        injection ha with ha; subst ha
        have hfree : ∀ i, (s.pc i).holds = false := by
          intro i
          have := List.all_eq_true.1 hf i (List.mem_finRange i)
          simpa using this
        have hok := h.ok t
        rw [hp] at hok
        refine inv_move h t _ (by rw [hp]; rfl) (fun _ => .inr hfree) ⟨hok.1, hok.2.1, ?_⟩ (.inr ⟨op, rfl, hfree⟩)
        rw [promise_start]; exact hok.2.2
      · simp at ha
    | _ => simp [act, hp] at ha
  | unlock t =>
    cases hp : s.pc t with
    | fin id op r =>
      simp only [act, hp, Option.some.injEq] at ha; subst ha
      have hok := h.ok t
      rw [hp] at hok
      exact inv_move h t _ (by rw [hp]; rfl) (by simp [Pc.holds]) hok (.inl (by rw [hp]; rfl))
    | _ => simp [act, hp] at ha
  | read t =>
    cases hp : s.pc t with
    | g1 id k =>
      simp only [act, hp, Option.some.injEq] at ha; subst ha
      have hok := h.ok t
      rw [hp] at hok
      exact inv_move h t _ (by rw [hp]; rfl) (by simp [Pc.holds]) ⟨hok.1, Nat.le_refl _, fun _ => hok.2, fun hlt => absurd hlt (by omega)⟩
        (.inl (by rw [hp]; rfl))
    | _ => simp [act, hp] at ha
  | load t =>
    cases hp : s.pc t with
    | g2 id k g => simp only [act, hp, Option.some.injEq] at ha; subst ha; exact inv_load h t hp
    | _ => simp [act, hp] at ha
  | ret t =>
    cases hp : s.pc t with
    | out id op r => simp only [act, hp, Option.some.injEq] at ha; subst ha; exact inv_ret h t hp
    | _ => simp [act, hp] at ha

theorem inv_exec {zk : K} {zv : V} {limit : Int} (as : List (Act n K V)) : ∀ {s s' : St n K V}, Inv zk zv limit s →
    exec zk zv s as = some s' → Inv zk zv limit s' := by
  induction as with
  | nil => intro s s' h he; injection he with he; subst he; exact h
  | cons x as ih =>
    intro s s' h he
    simp only [exec] at he
    split at he
    · next s1 h1 => exact ih (inv_act h x h1) he
    · simp at he

end Gofer.LinkedConc
