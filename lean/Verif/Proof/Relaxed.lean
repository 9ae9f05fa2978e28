import Verif.Spec.Relaxed
import Mathlib.Data.List.Nodup
/-! # Lemmas: without `Get` the two effects of a `Put` cannot be told from one -/
namespace Gofer.Spec.Relaxed
open Gofer.Spec.Assoc
open Gofer.Spec.Recency (Op Res)
open Gofer.Spec.Linear

variable {K V : Type} [DecidableEq K]

theorem filterMap_index {α β : Type} (f : α → Option β) (L : List α) : ∀ (x : Nat) (p : β), (L.filterMap f)[x]? = some p →
    ∃ (X : Nat) (q : α), L[X]? = some q ∧ f q = some p ∧ ((L.take X).filterMap f).length = x := by
  induction L with
  | nil => intro x p h; simp at h
  | cons a L ih =>
    intro x p h
    cases hf : f a with
    | none =>
      rw [List.filterMap_cons_none hf] at h
      obtain ⟨X, q, h1, h2, h3⟩ := ih x p h
      exact ⟨X + 1, q, by simpa using h1, h2, by rw [List.take_succ_cons, List.filterMap_cons_none hf]; exact h3⟩
    | some b =>
      rw [List.filterMap_cons_some hf] at h
      cases x with
      | zero => simp only [List.getElem?_cons_zero, Option.some.injEq] at h; exact ⟨0, a, rfl, by rw [hf, h], rfl⟩
      | succ x =>
        obtain ⟨X, q, h1, h2, h3⟩ := ih x p (by simpa using h)
        exact ⟨X + 1, q, by simpa using h1, h2, by rw [List.take_succ_cons, List.filterMap_cons_some hf]; simp [h3]⟩

theorem filterMap_take_lt {α β : Type} (f : α → Option β) (L : List α) {X Y : Nat} {q : α} (h : L[X]? = some q) {p : β} (hf : f q = some p)
    (hlt : X < Y) : ((L.take X).filterMap f).length < ((L.take Y).filterMap f).length := by
  have e : L.take Y = L.take X ++ q :: (L.drop (X + 1)).take (Y - (X + 1)) := by
    have h1 : L.take Y = (L.take Y).take X ++ (L.take Y).drop X := (List.take_append_drop X _).symm
    rw [h1, List.take_take, Nat.min_eq_left (by omega), List.drop_take]
    congr 1
    have h2 : L.drop X = q :: L.drop (X + 1) := by
      obtain ⟨hx, hq⟩ := List.getElem?_eq_some_iff.1 h
      rw [List.drop_eq_getElem_cons hx, hq]
    rw [h2]
    have h3 : Y - X = (Y - (X + 1)) + 1 := by omega
    rw [h3, List.take_succ_cons]
  rw [e, List.filterMap_append, List.filterMap_cons_some hf]
  simp

/-- What the entries will be once the oldest one is gone. -/
def settled : List (K × V) × Bool → List (K × V)
  | (es, true) => es.dropLast
  | (es, false) => es

theorem find_none_without {k : K} {es : List (K × V)} (h : find k es = none) : without k es = es := by
  have h : (es.find? (fun p => decide (p.1 = k))).map Prod.snd = none := h
  rw [Option.map_eq_none_iff, List.find?_eq_none] at h
  unfold without
  rw [List.filter_eq_self]
  intro p hp
  have := h p hp
  simpa using this

theorem settled_step (zk : K) (zv : V) (limit : Int) {s s1 : List (K × V) × Bool} {op : Op K V} {r : Res K V}
    (hg : ∀ k, op ≠ .get k) (h : step zk zv limit s op = some (s1, r)) :
    r = (Recency.step zk zv limit (settled s) op).2 ∧ settled s1 = (Recency.step zk zv limit (settled s) op).1 := by
  obtain ⟨es, ov⟩ := s
  have hput : ∀ k v, settled ((k, v) :: without k es, decide (find k es = none ∧ (es.length : Int) + 1 > limit)) = Recency.put limit k v es := by
    intro k v
    unfold Recency.put
    cases hk : find k es with
    | some v' => simp [settled]
    | none =>
      rw [find_none_without hk]
      by_cases hx : (es.length : Int) + 1 > limit
      · rw [if_pos hx]; simp [settled, hx]
      · rw [if_neg hx]; simp [settled, hx]
  cases op with
  | get k => exact absurd rfl (hg k)
  | put k v =>
    cases ov with
    | true => simp [step] at h
    | false =>
      simp only [step, Option.some.injEq, Prod.mk.injEq] at h
      obtain ⟨rfl, rfl⟩ := h
      exact ⟨rfl, hput k v⟩
  | loadOrStore k v =>
    cases ov with
    | true => simp [step] at h
    | false =>
      simp only [step, Option.some.injEq, Prod.mk.injEq] at h
      obtain ⟨rfl, rfl⟩ := h
      exact ⟨rfl, hput k v⟩
  | _ =>
    cases ov with
    | true => simp [step] at h
    | false =>
      simp only [step, Option.some.injEq, Prod.mk.injEq] at h
      obtain ⟨rfl, rfl⟩ := h
      exact ⟨rfl, rfl⟩

theorem accepts_run (zk : K) (zv : V) (limit : Int) (L : List (Item K V)) : ∀ (s s' : List (K × V) × Bool), Accepts zk zv limit s L s' →
    (∀ i op r, Item.call i op r ∈ L → ∀ k, op ≠ .get k) →
    (L.filterMap Item.call?).map (fun x => x.2.2) = Recency.run zk zv limit (settled s) ((L.filterMap Item.call?).map (fun x => x.2.1)) := by
  induction L with
  | nil => intro s s' _ _; rfl
  | cons x L ih =>
    intro s s' h hg
    cases x with
    | call i op r =>
      obtain ⟨s1, h1, h2⟩ := h
      obtain ⟨e1, e2⟩ := settled_step zk zv limit (hg i op r (by simp)) h1
      rw [List.filterMap_cons_some (f := Item.call?) (a := .call i op r) (b := (i, op, r)) rfl]
      simp only [List.map_cons, Recency.run]
      rw [← e2, ← ih s1 s' h2 (fun i op r hm => hg i op r (by simp [hm])), ← e1]
    | evict i =>
      obtain ⟨h1, h2⟩ := h
      obtain ⟨es, ov⟩ := s
      have h1 : ov = true := h1
      subst h1
      rw [List.filterMap_cons_none (f := Item.call?) (a := .evict i) rfl]
      have := ih (es.dropLast, false) s' h2 (fun i op r hm => hg i op r (by simp [hm]))
      exact this

/-- Without `Get`, what is explained is linearizable. -/
theorem linearizable (zk : K) (zv : V) (limit : Int) (h : List (Ev (Op K V) (Res K V))) (he : Explained zk zv limit h)
    (hg : ∀ i k, Ev.inv i (.get k) ∉ h) : Linearizable (Recency.run zk zv limit []) h := by
  obtain ⟨L, s, l1, l2, _, l4, l5, l6⟩ := he
  have hc : ∀ i op r, (i, op, r) ∈ L.filterMap Item.call? ↔ Item.call i op r ∈ L := by
    intro i op r
    rw [List.mem_filterMap]
    constructor
    · rintro ⟨x, hx, hc⟩
      cases x with
      | call i' op' r' => simp only [Item.call?, Option.some.injEq, Prod.mk.injEq] at hc; obtain ⟨rfl, rfl, rfl⟩ := hc; exact hx
      | evict i' => simp [Item.call?] at hc
    · intro hx; exact ⟨_, hx, rfl⟩
  refine ⟨L.filterMap Item.call?, l1, ?_, ?_, ?_, ?_⟩
  · rintro ⟨i, op, r⟩ hx; exact l2 i op r ((hc i op r).1 hx)
  · intro i r hr
    obtain ⟨op, ho⟩ := l4 i r hr
    exact ⟨op, (hc i op r).2 ho⟩
  · exact accepts_run zk zv limit L ([], false) s l5 (fun i op r hm k e => hg i k (e ▸ l2 i op r hm))
  · intro a b i r j op ha hb hlt x y p q hp hq e1 e2
    obtain ⟨X, p', p1, p2, p3⟩ := filterMap_index _ _ x p hp
    obtain ⟨Y, q', q1, q2, q3⟩ := filterMap_index _ _ y q hq
    have hid : ∀ (z : Item K V) (w : Nat × Op K V × Res K V), Item.call? z = some w → z.id = w.1 := by
      intro z w hz
      cases z with
      | call i op r => simp only [Item.call?, Option.some.injEq] at hz; subst hz; rfl
      | evict i => simp [Item.call?] at hz
    have := l6 a b i r j op ha hb hlt X Y p' q' p1 q1 (by rw [hid _ _ p2, e1]) (by rw [hid _ _ q2, e2])
    rw [← p3, ← q3]
    exact filterMap_take_lt _ L p1 p2 this

end Gofer.Spec.Relaxed
