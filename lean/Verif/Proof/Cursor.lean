import Verif.Spec.Cursor
import Verif.Proof.Assoc
import Mathlib.Data.List.Basic
import Mathlib.Data.List.Nodup

/-! # Calm iterations return every entry that stays -/
namespace Gofer.Spec.Cursor
open Gofer.Spec.Assoc
open Gofer.Spec.Recency (Op Res)
variable {K V : Type} [DecidableEq K]

/-- The keys are distinct. -/
def Uniq (es : List (K × V)) : Prop := (es.map Prod.fst).Nodup

theorem without_sub (k : K) (es : List (K × V)) : List.Sublist (without k es) es := List.filter_sublist

/-- What a call other than `Clear` and `MoveToFront` does: some new entries in front of some of the old
ones. -/
theorem step_shape (zk : K) (zv : V) (limit : Int) {es : List (K × V)} (hu : Uniq es) (o : Op K V)
    (hc : clears o = false) (hm : moves o = false) :
    ∃ pre sub, (Recency.step zk zv limit es o).1 = pre ++ sub ∧ List.Sublist sub es ∧
      (∀ p ∈ pre, replaces p.1 o = true) ∧ (∀ p ∈ sub, replaces p.1 o = false) ∧
      Uniq (Recency.step zk zv limit es o).1 := by
  have same : (Recency.step zk zv limit es o).1 = es → (∀ k, replaces k o = false) → ∃ pre sub,
      (Recency.step zk zv limit es o).1 = pre ++ sub ∧ List.Sublist sub es ∧
      (∀ p ∈ pre, replaces p.1 o = true) ∧ (∀ p ∈ sub, replaces p.1 o = false) ∧
      Uniq (Recency.step zk zv limit es o).1 := by
    intro h1 h2
    rw [h1]
    exact ⟨[], es, rfl, List.Sublist.refl _, by simp, fun p _ => h2 _, hu⟩
  have hput : ∀ (k : K) (v : V), ∃ pre sub, Recency.put limit k v es = pre ++ sub ∧ List.Sublist sub es ∧
      (∀ p ∈ pre, decide (k = p.1) = true) ∧ (∀ p ∈ sub, decide (k = p.1) = false) ∧
      Uniq (Recency.put limit k v es) := by
    intro k v
    unfold Recency.put
    cases hf : find k es with
    | some w =>
      have h2 : ∀ p ∈ without k es, decide (k = p.1) = false := by
        intro p hp
        have := (List.mem_filter.1 hp).2
        simp only [ne_eq, decide_not, Bool.not_eq_true', decide_eq_false_iff_not] at this ⊢
        exact fun h => this h.symm
      refine ⟨[(k, v)], without k es, rfl, without_sub k es, by simp, h2, ?_⟩
      refine List.nodup_cons.2 ⟨?_, List.Nodup.sublist ((without_sub k es).map _) hu⟩
      intro hmem
      obtain ⟨p, hp, hk⟩ := List.mem_map.1 hmem
      have := h2 p hp
      simp only [hk, decide_true, Bool.true_eq_false] at this
    | none =>
      have hn := find_none.1 hf
      have h2 : ∀ p ∈ es, decide (k = p.1) = false := by
        intro p hp
        rw [decide_eq_false_iff_not]
        rintro rfl
        exact hn (List.mem_map_of_mem hp)
      have hu2 : Uniq ((k, v) :: es) := List.nodup_cons.2 ⟨hn, hu⟩
      dsimp only
      split
      · cases es with
        | nil => exact ⟨[], [], rfl, List.Sublist.refl _, by simp, by simp, List.nodup_nil⟩
        | cons e es =>
          refine ⟨[(k, v)], (e :: es).dropLast, by simp, List.dropLast_sublist _, by simp,
            fun p hp => h2 p ((List.dropLast_sublist _).subset hp), ?_⟩
          exact List.Nodup.sublist ((List.dropLast_sublist _).map _) hu2
      · exact ⟨[(k, v)], es, rfl, List.Sublist.refl _, by simp, h2, hu2⟩
  cases o with
  | put k v => exact hput k v
  | loadOrStore k v => exact hput k v
  | get k => exact same rfl fun _ => rfl
  | back => exact same rfl fun _ => rfl
  | front => exact same rfl fun _ => rfl
  | len => exact same rfl fun _ => rfl
  | clear => simp [clears] at hc
  | moveToFront k => simp [moves] at hm
  | delete k =>
    refine ⟨[], without k es, rfl, without_sub k es, by simp, ?_, List.Nodup.sublist ((without_sub k es).map _) hu⟩
    intro p hp
    have := (List.mem_filter.1 hp).2
    simp only [ne_eq, decide_not, Bool.not_eq_true', decide_eq_false_iff_not, replaces] at this ⊢
    exact fun h => this h.symm

/-- The keys stay distinct. -/
theorem step_uniq (zk : K) (zv : V) (limit : Int) {es : List (K × V)} (hu : Uniq es) (o : Op K V) :
    Uniq (Recency.step zk zv limit es o).1 := by
  cases o with
  | clear => exact List.nodup_nil
  | moveToFront k =>
    show Uniq (match find k es with | some v => (k, v) :: without k es | none => es)
    cases find k es with
    | none => exact hu
    | some v =>
      refine List.nodup_cons.2 ⟨?_, List.Nodup.sublist ((without_sub k es).map _) hu⟩
      intro hmem
      obtain ⟨p, hp, hk⟩ := List.mem_map.1 hmem
      have := (List.mem_filter.1 hp).2
      simp [hk] at this
  | _ =>
    rename_i x
    first
    | exact (step_shape zk zv limit hu _ rfl rfl).choose_spec.choose_spec.2.2.2.2

theorem since_of {k : K} {v : V} {xs ys : List (K × V)} (h : k ∉ xs.map Prod.fst) :
    since k (xs ++ (k, v) :: ys) = (k, v) :: ys := by
  unfold since
  rw [List.dropWhile_append_of_pos]
  · simp
  · intro p hp
    simp only [ne_eq, decide_not, Bool.not_eq_true', decide_eq_false_iff_not]
    rintro rfl
    exact h (List.mem_map_of_mem hp)

theorem since_sub (k : K) (l : List (K × V)) : List.Sublist (since k l) l := List.dropWhile_sublist _

/-- Split of distinct keys. -/
theorem uniq_split {k : K} {v : V} {xs ys : List (K × V)} (h : Uniq (xs ++ (k, v) :: ys)) :
    k ∉ xs.map Prod.fst ∧ k ∉ ys.map Prod.fst ∧ (∀ p ∈ xs, p ∉ ys) := by
  unfold Uniq at h
  rw [List.map_append, List.map_cons] at h
  have h2 := List.nodup_append.1 h
  refine ⟨?_, ?_, ?_⟩
  · intro hm; exact h2.2.2 k hm k (by simp) rfl
  · exact (List.nodup_cons.1 h2.2.1).1
  · intro p hp hp'
    exact h2.2.2 p.1 (List.mem_map_of_mem hp) p.1 (List.mem_cons_of_mem _ (List.mem_map_of_mem hp')) rfl

theorem mem_split {k : K} {v : V} {l : List (K × V)} (h : find k l = some v) : ∃ xs ys, l = xs ++ (k, v) :: ys := by
  unfold find at h
  obtain ⟨p, hp, hv⟩ := Option.map_eq_some_iff.1 h
  have h1 := List.mem_of_find?_eq_some hp
  have h2 := List.find?_some hp
  simp only [decide_eq_true_eq] at h2
  obtain ⟨xs, ys, rfl⟩ := List.append_of_mem h1
  refine ⟨xs, ys, ?_⟩
  rw [← h2, ← hv]

theorem find_of_mem {p : K × V} {l : List (K × V)} (hu : Uniq l) (h : p ∈ l) : find p.1 l = some p.2 := by
  obtain ⟨xs, ys, rfl⟩ := List.append_of_mem h
  exact (find_split hu).1

theorem mem_of_find {k : K} {v : V} {l : List (K × V)} (h : find k l = some v) : (k, v) ∈ l := by
  obtain ⟨xs, ys, rfl⟩ := mem_split h
  simp

/-- A sublist that keeps `k` keeps the order around it. -/
theorem since_sublist {k : K} {v : V} {l sub : List (K × V)} (hu : Uniq l) (hs : List.Sublist sub l)
    (hk : find k sub = some v) : List.Sublist (since k sub) (since k l) ∧
      ∀ p ∈ since k l, p ∈ sub → p ∈ since k sub := by
  obtain ⟨xs, ys, rfl⟩ := mem_split hk
  have hus : Uniq (xs ++ (k, v) :: ys) := List.Nodup.sublist (hs.map _) hu
  rw [since_of (uniq_split hus).1]
  obtain ⟨l1, l2, rfl, h1, h2⟩ := List.append_sublist_iff.1 hs
  obtain ⟨r1, r2, rfl, h3, h4⟩ := List.cons_sublist_iff.1 h2
  obtain ⟨a, b, rfl⟩ := List.append_of_mem h3
  have hu' : Uniq ((l1 ++ a) ++ (k, v) :: (b ++ r2)) := by simpa using hu
  have e : l1 ++ (a ++ (k, v) :: b ++ r2) = (l1 ++ a) ++ (k, v) :: (b ++ r2) := by simp
  rw [e, since_of (uniq_split hu').1]
  constructor
  · exact List.Sublist.cons_cons _ (h4.trans (List.sublist_append_right _ _))
  · intro p hp hps
    rcases List.mem_append.1 hps with hx | hx
    · exfalso
      have hxl : p ∈ l1 ++ a := List.mem_append_left _ (h1.subset hx)
      rcases List.mem_cons.1 hp with rfl | hp
      · exact (uniq_split hu').1 (List.mem_map_of_mem hxl)
      · exact (uniq_split hu').2.2 p hxl hp
    · exact hx

theorem since_ne_nil {k : K} {v : V} {l : List (K × V)} (h : (k, v) ∈ l) : since k l ≠ [] := by
  induction l with
  | nil => simp at h
  | cons p l ih =>
    unfold since
    rw [List.dropWhile_cons]
    split
    · rename_i hp
      rcases List.mem_cons.1 h with rfl | h
      · simp at hp
      · exact ih h
    · simp

theorem since_append {k : K} {l m : List (K × V)} (h : (find k l).isSome = true) : since k (l ++ m) = since k l ++ m := by
  obtain ⟨v, hv⟩ := Option.isSome_iff_exists.1 h
  obtain ⟨xs, ys, rfl⟩ := mem_split hv
  unfold since
  rw [List.dropWhile_append, if_neg]
  intro hc
  have := List.isEmpty_iff.1 hc
  have h2 := since_ne_nil (show (k, v) ∈ xs ++ (k, v) :: ys by simp)
  exact h2 this

theorem find_append_right {k : K} {l m : List (K × V)} (h : k ∉ l.map Prod.fst) : find k (l ++ m) = find k m := by
  have := find_none.2 h
  unfold find at this ⊢
  rw [List.find?_append]
  have h2 := Option.map_eq_none_iff.1 this
  rw [h2]; rfl

theorem since_append_right {k : K} {l m : List (K × V)} (h : k ∉ l.map Prod.fst) : since k (l ++ m) = since k m := by
  unfold since
  rw [List.dropWhile_append_of_pos]
  intro p hp
  simp only [ne_eq, decide_not, Bool.not_eq_true', decide_eq_false_iff_not]
  rintro rfl
  exact h (List.mem_map_of_mem hp)

omit [DecidableEq K] in
theorem uniq_reverse {l : List (K × V)} (h : Uniq l) : Uniq l.reverse := by
  unfold Uniq at *
  rw [List.map_reverse, List.nodup_reverse]; exact h

theorem uniq_dir {l : List (K × V)} (h : Uniq l) (front : Bool) : Uniq (dir front l) := by
  cases front
  · exact uniq_reverse h
  · exact h

omit [DecidableEq K] in
theorem mem_dir {l : List (K × V)} {p : K × V} (front : Bool) : p ∈ dir front l ↔ p ∈ l := by
  cases front <;> simp [dir]

theorem find_dir {l : List (K × V)} (h : Uniq l) (front : Bool) (k : K) : find k (dir front l) = find k l := by
  cases hf : find k l with
  | some v => exact find_of_mem (uniq_dir h front) ((mem_dir front).2 (mem_of_find hf))
  | none =>
    rw [find_none] at hf ⊢
    intro hm
    obtain ⟨p, hp, hk⟩ := List.mem_map.1 hm
    exact hf (List.mem_map.2 ⟨p, (mem_dir front).1 hp, hk⟩)

/-- A call that spares `k`: the entries ahead that stay are kept, and forward nothing is added. -/
theorem call_ahead (zk : K) (zv : V) (limit : Int) {es : List (K × V)} (hu : Uniq es) (o : Op K V)
    (hc : clears o = false) (hm : moves o = false) {k : K}
    (hr : replaces k o = false) (hs : (find k (Recency.step zk zv limit es o).1).isSome = true) (front : Bool) :
    (front = true → List.Sublist (since k (dir front (Recency.step zk zv limit es o).1)) (since k (dir front es))) ∧
    ∀ p ∈ since k (dir front es), replaces p.1 o = false → (find p.1 (Recency.step zk zv limit es o).1).isSome = true →
      p ∈ since k (dir front (Recency.step zk zv limit es o).1) := by
  obtain ⟨pre, sub, e, h1, h2, h3, h4⟩ := step_shape zk zv limit hu o hc hm
  rw [e] at hs h4 ⊢
  have npre : ∀ q, replaces q o = false → q ∉ pre.map Prod.fst := by
    intro q hq hmem
    obtain ⟨p, hp, rfl⟩ := List.mem_map.1 hmem
    rw [h2 p hp] at hq; cases hq
  have hus : Uniq sub := List.Nodup.sublist (h1.map _) hu
  have hs' : (find k sub).isSome = true := by
    rw [find_append_right (npre k hr)] at hs; exact hs
  obtain ⟨v, hv⟩ := Option.isSome_iff_exists.1 hs'
  have hback : ∀ p ∈ es, replaces p.1 o = false → (find p.1 (pre ++ sub)).isSome = true → p ∈ sub := by
    intro p hp hpr hps
    rw [find_append_right (npre _ hpr)] at hps
    obtain ⟨w, hw⟩ := Option.isSome_iff_exists.1 hps
    have h5 := mem_of_find hw
    have h6 := find_of_mem hu (h1.subset h5)
    have h7 := find_of_mem hu hp
    simp only at h6
    rw [h6] at h7
    have : w = p.2 := Option.some.inj h7
    subst this
    exact h5
  cases front with
  | true =>
    have e1 : dir true (pre ++ sub) = pre ++ sub := rfl
    have e2 : dir true es = es := rfl
    rw [e1, e2, since_append_right (npre k hr)]
    obtain ⟨h5, h6⟩ := since_sublist hu h1 hv
    refine ⟨fun _ => h5, ?_⟩
    intro p hp hpr hps
    exact h6 p hp (hback p ((since_sub k es).subset hp) hpr hps)
  | false =>
    refine ⟨fun h => by simp at h, ?_⟩
    have e1 : dir false (pre ++ sub) = sub.reverse ++ pre.reverse := by simp [dir]
    have e2 : dir false es = es.reverse := rfl
    have hvr : find k sub.reverse = some v := by
      have := find_dir hus false k
      rw [hv] at this; exact this
    rw [e1, e2, since_append (by rw [hvr]; rfl)]
    obtain ⟨h5, h6⟩ := since_sublist (uniq_reverse hu) h1.reverse hvr
    intro p hp hpr hps
    have hpe : p ∈ es := List.mem_reverse.1 ((since_sub k es.reverse).subset hp)
    exact List.mem_append_left _ (h6 p hp (List.mem_reverse.2 (hback p hpe hpr hps)))

/-- A key that is absent stays absent unless it is stored. -/
theorem step_mono (zk : K) (zv : V) (limit : Int) {es : List (K × V)} (hu : Uniq es) (o : Op K V) {q : K}
    (hq : replaces q o = false) (hn : find q es = none) : find q (Recency.step zk zv limit es o).1 = none := by
  by_cases hm : moves o = true
  · cases o with
    | moveToFront k =>
      show find q (match find k es with | some v => (k, v) :: without k es | none => es) = none
      cases hk : find k es with
      | none => exact hn
      | some v =>
        rw [find_none] at hn ⊢
        intro hm
        apply hn
        rcases List.mem_cons.1 hm with hm | hm
        · simp only at hm
          subst hm
          exact List.mem_map.2 ⟨_, mem_of_find hk, rfl⟩
        · exact ((without_sub k es).map _).subset hm
    | _ => simp [moves] at hm
  · by_cases hc : clears o = true
    · cases o with
      | clear => rfl
      | _ => simp [clears] at hc
    · obtain ⟨pre, sub, e, h1, h2, h3, h4⟩ := step_shape zk zv limit hu o (by simpa using hc) (by simpa using hm)
      rw [e]
      rw [find_none] at hn ⊢
      intro hm
      rw [List.map_append, List.mem_append] at hm
      rcases hm with hm | hm
      · obtain ⟨p, hp, rfl⟩ := List.mem_map.1 hm
        rw [h2 p hp] at hq; cases hq
      · exact hn ((h1.map _).subset hm)

/-- What a cursor has ahead. -/
def ahead (front : Bool) (es : List (K × V)) : Cur K V → List (K × V)
  | .live k => since k (dir front es)
  | _ => []

/-- The cursor is one of a calm iteration. -/
def Good (es : List (K × V)) : Cur K V → Prop
  | .stop => True
  | .live k => (find k es).isSome = true
  | _ => False

theorem first_ahead {front : Bool} {es : List (K × V)} (hu : Uniq es) {xs ys : List (K × V)}
    (h : dir front es = xs ++ ys) : ahead front es (first ys) = ys ∧ Good es (first ys) := by
  cases ys with
  | nil => exact ⟨rfl, trivial⟩
  | cons p ys =>
    have hud := uniq_dir hu front
    rw [h] at hud
    constructor
    · show since p.1 (dir front es) = p :: ys
      rw [h]
      exact since_of (uniq_split (k := p.1) (v := p.2) hud).1
    · show (find p.1 es).isSome = true
      rw [← find_dir hu front, h, (find_split (k := p.1) (v := p.2) hud).1]; rfl

/-- Calm iterations. -/
theorem calm_run (zk : K) (zv : V) (limit : Int) (front : Bool) (as : List (Act K V)) {es : List (K × V)} {c : Cur K V}
    (hu : Uniq es) (hg : Good es c) (hcalm : calm zk zv limit ⟨es, [(front, c)]⟩ as = true) :
    ∃ es' c', final zk zv limit ⟨es, [(front, c)]⟩ as = ⟨es', [(front, c')]⟩ ∧ Uniq es' ∧ Good es' c' ∧
      (front = true → List.Sublist (yielded (run zk zv limit ⟨es, [(front, c)]⟩ as) ++ ahead front es' c')
        (ahead front es c)) ∧
      (∀ p ∈ ahead front es c, untouched p.1 as = true → (find p.1 es').isSome = true →
        p ∈ yielded (run zk zv limit ⟨es, [(front, c)]⟩ as) ++ ahead front es' c') ∧
      (∀ q, untouched q as = true → find q es = none → find q es' = none) := by
  induction as generalizing es c with
  | nil => exact ⟨es, c, rfl, hu, hg, fun _ => List.Sublist.refl _, fun p hp _ _ => hp, fun _ _ h => h⟩
  | cons a as ih =>
    simp only [calm, Bool.and_eq_true] at hcalm
    obtain ⟨ha, hcalm⟩ := hcalm
    cases a with
    | iterator f => simp [spares] at ha
    | next i =>
      have hi : i = 0 := by simpa [spares] using ha
      subst hi
      match c, hg, ha, hcalm with
      | .stop, _, _, hcalm =>
        obtain ⟨es', c', h1, h2, h3, h4, h5, h6⟩ := ih (c := .stop) hu trivial hcalm
        exact ⟨es', c', h1, h2, h3, h4, fun p hp => by simp [ahead] at hp, h6⟩
      | .live k, hg, _, hcalm =>
        obtain ⟨v, hv⟩ := Option.isSome_iff_exists.1 hg
        have hvd : find k (dir front es) = some v := by rw [find_dir hu]; exact hv
        obtain ⟨xs, ys, hd⟩ := mem_split hvd
        have hud := uniq_dir hu front
        rw [hd] at hud
        have hsin : since k (dir front es) = (k, v) :: ys := by rw [hd]; exact since_of (uniq_split hud).1
        have hd' : dir front es = (xs ++ [(k, v)]) ++ ys := by rw [hd]; simp
        obtain ⟨ha1, hg1⟩ := first_ahead hu hd'
        have hnext : next front es (.live k) = (first ys, some (k, v)) := by
          simp only [next, hsin, hv, List.tail_cons, Option.map_some]
        have hstep : step zk zv limit ⟨es, [(front, .live k)]⟩ (.next 0) =
            (⟨es, [(front, first ys)]⟩, .next (some (k, v))) := by
          simp only [step, List.getElem?_cons_zero, hnext, List.set_cons_zero]
        rw [hstep] at hcalm
        obtain ⟨es', c', h1, h2, h3, h4, h5, h6⟩ := ih hu hg1 hcalm
        rw [ha1] at h4 h5
        refine ⟨es', c', ?_, h2, h3, ?_, ?_, ?_⟩
        · simp only [final, List.foldl_cons, hstep]; exact h1
        · intro hf
          simp only [run, hstep, yielded, ahead, hsin, List.cons_append]
          exact List.Sublist.cons_cons _ (h4 hf)
        · intro p hp hun hfi
          simp only [ahead, hsin] at hp
          simp only [run, hstep, yielded, List.cons_append]
          rcases List.mem_cons.1 hp with rfl | hp
          · simp
          · exact List.mem_cons_of_mem _ (h5 p hp hun hfi)
        · intro q hq hn; exact h6 q hq hn
    | call o =>
      have hmono : ∀ q, replaces q o = false → find q es = none → find q (Recency.step zk zv limit es o).1 = none := by
        exact fun q hq hn => step_mono zk zv limit hu o hq hn
      have hu' := step_uniq zk zv limit hu o
      match c, hg, ha, hcalm with
      | .stop, _, _, hcalm =>
        obtain ⟨es', c', h1, h2, h3, h4, h5, h6⟩ := ih (c := .stop) hu' trivial hcalm
        refine ⟨es', c', h1, h2, h3, h4, fun p hp => by simp [ahead] at hp, ?_⟩
        intro q hq hn
        simp only [untouched, Bool.and_eq_true, Bool.not_eq_true'] at hq
        exact h6 q hq.2 (hmono q hq.1 hn)
      | .live k, hg, ha, hcalm =>
        simp only [spares, Bool.and_eq_true, Bool.not_eq_true'] at ha
        obtain ⟨⟨⟨hc, hm⟩, hr⟩, hs⟩ := ha
        obtain ⟨v, hv⟩ := Option.isSome_iff_exists.1 hg
        have hch : change front es (Recency.step zk zv limit es o).1 o (.live k) = .live k := by
          simp only [change, hv, hc, hr, hs, Bool.false_eq_true, if_false, if_true]
        have hstep : (step zk zv limit ⟨es, [(front, .live k)]⟩ (.call o)) =
            (⟨(Recency.step zk zv limit es o).1, [(front, .live k)]⟩, .call (Recency.step zk zv limit es o).2) := by
          simp only [step, List.map_cons, List.map_nil, hch]
        rw [hstep] at hcalm
        obtain ⟨es', c', h1, h2, h3, h4, h5, h6⟩ := ih (c := .live k) hu' hs hcalm
        obtain ⟨h7, h8⟩ := call_ahead zk zv limit hu o hc hm hr hs front
        refine ⟨es', c', ?_, h2, h3, ?_, ?_, ?_⟩
        · simp only [final, List.foldl_cons, hstep]; exact h1
        · intro hf
          simp only [run, hstep, yielded]
          exact (h4 hf).trans (h7 hf)
        · intro p hp hun hfi
          simp only [untouched, Bool.and_eq_true, Bool.not_eq_true'] at hun
          simp only [run, hstep, yielded]
          refine h5 p (h8 p hp hun.1 ?_) hun.2 hfi
          cases hx : find p.1 (Recency.step zk zv limit es o).1 with
          | some _ => rfl
          | none =>
            rw [h6 p.1 hun.2 hx] at hfi; exact hfi
        · intro q hq hn
          simp only [untouched, Bool.and_eq_true, Bool.not_eq_true'] at hq
          exact h6 q hq.2 (hmono q hq.1 hn)

end Gofer.Spec.Cursor
