import Verif.Model.Lru
import Verif.Proof.Linked
import Verif.Proof.Assoc

namespace Gofer.Lru
open GoList
open Gofer.Spec.Lru (Op Res)
open Gofer.Spec.Assoc
variable {K V : Type} [DecidableEq K] [GoValue V]

/-- How an entry is stored. -/
def enc (p : K × V) : Option K × Option V := (some p.1, toAny p.2)

/-- Refinement relation. -/
structure Inv (max : Int) (c : LC K V) (es : List (K × V)) : Prop where
  lnk : ∃ ids, Lnk Prod.fst c.cache c.ll ids (es.map enc)
  max_eq : c.maxEntries = max
  pos : 0 < max → (es.length : Int) ≤ max
  neg : max < 0 → es = []

theorem inv_new (max : Int) : Inv max (new max : LC K V) [] :=
  ⟨⟨[], Lnk.new⟩, rfl, by simp; omega, fun _ => rfl⟩

theorem keys_enc (es : List (K × V)) : (es.map enc).map Prod.fst = (es.map Prod.fst).map some := by
  simp [enc, Function.comp_def]

theorem load_some' {m : AMap (Option K) Nat} {l : GoList (Option K × Option V)} {ids : List Nat} {es : List (K × V)}
    (hl : Lnk Prod.fst m l ids (es.map enc)) {k : Option K} {i : Nat} (h : m.load k = some i) :
    ∃ xs ys exs k' v eys, k = some k' ∧ ids = xs ++ i :: ys ∧ es = exs ++ (k', v) :: eys ∧ l.val i = some (some k', toAny v) ∧
      xs.map l.val = (exs.map enc).map some ∧ ys.map l.val = (eys.map enc).map some ∧
      find k' es = some v ∧ without k' es = exs ++ eys := by
  have hn := hl.nodup
  obtain ⟨xs, ys, exs, a, eys, h1, h2, h3, h4, h5, h6⟩ := hl.load_some h
  obtain ⟨exs', r, rfl, e1, e2⟩ := List.map_eq_append_iff.1 h2
  obtain ⟨⟨k', v⟩, eys', rfl, e3, e4⟩ := List.map_eq_cons_iff.1 e2
  subst e1 e4 e3
  rw [keys_enc] at hn
  have hn' : ((exs' ++ (k', v) :: eys').map Prod.fst).Nodup := List.Nodup.of_map _ hn
  obtain ⟨f1, f2⟩ := find_split hn'
  exact ⟨xs, ys, exs', k', v, eys', h4.symm, h1, rfl, h3, h5, h6, f1, f2⟩

theorem load_none' {m : AMap (Option K) Nat} {l : GoList (Option K × Option V)} {ids : List Nat} {es : List (K × V)}
    (hl : Lnk Prod.fst m l ids (es.map enc)) (k : K) : m.load (some k) = none ↔ find k es = none := by
  rw [hl.load_none, keys_enc, find_none]; simp

theorem load_nil {m : AMap (Option K) Nat} {l : GoList (Option K × Option V)} {ids : List Nat} {es : List (K × V)}
    (hl : Lnk Prod.fst m l ids (es.map enc)) : m.load none = none := by
  rw [hl.load_none, keys_enc]; simp

theorem any_back (v : V) : (match toAny v with | some v => v | none => GoValue.zero) = v := by
  unfold toAny
  by_cases h : GoValue.isNil v = true
  · rw [if_pos h]; exact (GoValue.nil_zero v h).symm
  · simp [h]

theorem get_spec {max : Int} {c : LC K V} {es : List (K × V)} (h : Inv max c es) (str : String → K) (k : Option K) :
    (step str c (.get k)).2 = (Spec.Lru.step str GoValue.zero max es (.get k)).2 ∧
    Inv max (step str c (.get k)).1 (Spec.Lru.step str GoValue.zero max es (.get k)).1 := by
  obtain ⟨ids, hl⟩ := h.lnk
  cases hk : c.cache.load k with
  | none =>
    have hg : get c k = (c, (GoValue.zero, false)) := by simp only [get, lruGet, hk]
    cases k with
    | none => exact ⟨by simp only [step, hg, Spec.Lru.step], by simpa only [step, hg, Spec.Lru.step] using h⟩
    | some k =>
      have hf := (load_none' hl k).1 hk
      simp only [step, hg, Spec.Lru.step, hf]
      exact ⟨trivial, h⟩
  | some i =>
    obtain ⟨xs, ys, exs, k', v, eys, rfl, rfl, he, h3, h5, h6, hf, hw⟩ := load_some' hl hk
    have hes := he
    subst he
    rw [List.map_append, List.map_cons] at hl
    have hm := hl.moveToFront h3 h5 h6
    have hg : get c (some k') = ({ c with ll := c.ll.moveToFront i }, (v, true)) := by
      simp only [get, lruGet, hk, moveToFront_val, h3, Option.map_some]
      have := any_back v
      cases ha : toAny v with
      | none => rw [ha] at this; simp only at this ⊢; rw [this]
      | some w => rw [ha] at this; simp only at this ⊢; rw [this]
    simp only [step, hg, Spec.Lru.step, hf, hw]
    refine ⟨trivial, ⟨⟨_, by simpa [enc] using hm⟩, h.max_eq, ?_, ?_⟩⟩
    · intro hp
      have := h.pos hp
      simp at this ⊢; omega
    · intro hp
      have := h.neg hp
      simp at this

theorem removeElement_spec {max : Int} {c : LC K V} {exs eys : List (K × V)} {k : K} {v : V} {xs ys : List Nat} {i : Nat}
    (hl : Lnk Prod.fst c.cache c.ll (xs ++ i :: ys) ((exs ++ (k, v) :: eys).map enc))
    (h3 : c.ll.val i = some (some k, toAny v)) (h5 : xs.map c.ll.val = (exs.map enc).map some)
    (h6 : ys.map c.ll.val = (eys.map enc).map some) (hm : c.maxEntries = max) :
    (∃ ids, Lnk Prod.fst (removeElement c i).cache (removeElement c i).ll ids ((exs ++ eys).map enc)) ∧
      (removeElement c i).maxEntries = max := by
  rw [List.map_append, List.map_cons] at hl
  have hr := hl.remove h3 h5 h6
  have hre : removeElement c i = { c with ll := c.ll.remove i, cache := c.cache.delete (some k) } := by
    simp only [removeElement, remove_val, h3]
  rw [hre]
  exact ⟨⟨_, by simpa [enc] using hr⟩, hm⟩

theorem remove_spec {max : Int} {c : LC K V} {es : List (K × V)} (h : Inv max c es) (k : K) :
    Inv max (lruRemove c (some k)) (without k es) := by
  obtain ⟨ids, hl⟩ := h.lnk
  unfold lruRemove
  cases hk : c.cache.load (some k) with
  | none =>
    have hf := (load_none' hl k).1 hk
    rw [without_of_not_mem (find_none.1 hf)]
    exact h
  | some i =>
    obtain ⟨xs, ys, exs, k', v, eys, hkk, rfl, rfl, h3, h5, h6, hf, hw⟩ := load_some' hl hk
    obtain rfl := Option.some.inj hkk
    obtain ⟨h7, h8⟩ := removeElement_spec hl h3 h5 h6 h.max_eq
    rw [hw]
    refine ⟨h7, h8, ?_, ?_⟩
    · intro hp
      have := h.pos hp
      simp at this ⊢; omega
    · intro hp
      have := h.neg hp
      simp at this

theorem removeMulti_spec (str : String → K) {max : Int} (ks : List String) {c : LC K V} {es : List (K × V)} (h : Inv max c es) :
    Inv max (removeMulti str c ks) (es.filter fun p => p.1 ∉ ks.map str) := by
  induction ks generalizing c es with
  | nil => simpa [removeMulti] using h
  | cons k ks ih =>
    have h3 := ih (remove_spec h (str k))
    have : es.filter (fun p => decide (p.1 ∉ (k :: ks).map str)) = (without (str k) es).filter (fun p => decide (p.1 ∉ ks.map str)) := by
      rw [without, List.filter_filter]
      apply List.filter_congr
      intro x _
      simp [Bool.and_comm]
    rw [this]; exact h3

theorem add_spec {max : Int} {c : LC K V} {es : List (K × V)} (h : Inv max c es) (k : K) (v : V) :
    Inv max (lruAdd c (some k) (toAny v)) (Spec.Lru.add max k v es) := by
  obtain ⟨ids, hl⟩ := h.lnk
  cases hk : c.cache.load (some k) with
  | some i =>
    obtain ⟨xs, ys, exs, k', w, eys, hkk, rfl, rfl, h3, h5, h6, hf, hw⟩ := load_some' hl hk
    obtain rfl := Option.some.inj hkk
    rw [List.map_append, List.map_cons] at hl
    have hm := hl.moveToFront h3 h5 h6
    have hm' : Lnk Prod.fst c.cache (c.ll.moveToFront i) ([] ++ i :: (xs ++ ys)) ([] ++ enc (k, w) :: ((exs ++ eys).map enc)) := by
      simpa using hm
    obtain ⟨s1, _, _⟩ := hm'.setVal (b := enc (k, v)) (by rw [moveToFront_val, h3]; rfl) rfl rfl (by
      rw [moveToFront_val, List.map_append, h5, h6]; simp)
    have ha : lruAdd c (some k) (toAny v) = { c with ll := (c.ll.moveToFront i).setVal i (some k, toAny v) } := by
      simp only [lruAdd, hk, moveToFront_val, h3]
    rw [ha]
    simp only [Spec.Lru.add, hf, hw]
    refine ⟨⟨_, by simpa [enc] using s1⟩, h.max_eq, ?_, ?_⟩
    · intro hp
      have := h.pos hp
      simp at this ⊢; omega
    · intro hp
      have := h.neg hp
      simp at this
  | none =>
    have hf := (load_none' hl k).1 hk
    have hp := hl.push (some k, toAny v) (by rw [keys_enc]; simpa using find_none.1 hf)
    have hlen := hp.len_eq
    simp only [List.length_cons, List.length_map] at hlen
    have ha : lruAdd c (some k) (toAny v) =
        (if max ≠ 0 ∧ (es.length : Int) + 1 > max then
          removeOldest { c with ll := (c.ll.pushFront (some k, toAny v)).1, cache := c.cache.store (some k) (c.ll.pushFront (some k, toAny v)).2 }
        else { c with ll := (c.ll.pushFront (some k, toAny v)).1, cache := c.cache.store (some k) (c.ll.pushFront (some k, toAny v)).2 }) := by
      simp only [lruAdd, hk, hlen, h.max_eq, Nat.cast_add, Nat.cast_one]
    rw [ha]
    simp only [Spec.Lru.add, hf]
    by_cases hc : max ≠ 0 ∧ (es.length : Int) + 1 > max
    · rw [if_pos hc, if_pos hc]
      generalize hc0 : ({ c with ll := (c.ll.pushFront (some k, toAny v)).1, cache := c.cache.store (some k) (c.ll.pushFront (some k, toAny v)).2 } : LC K V) = c0
      have hp0 : Lnk Prod.fst c0.cache c0.ll ((c.ll.pushFront (some k, toAny v)).2 :: ids) (((k, v) :: es).map enc) := by
        rw [← hc0]; simpa [enc] using hp
      have hmx : c0.maxEntries = max := by rw [← hc0]; exact h.max_eq
      obtain ⟨xs, i, exs, a, e1, e2, e3, e4, e5, e6⟩ := hp0.back_some (by simp)
      obtain ⟨fs, ⟨k', v'⟩, hfs⟩ := List.eq_nil_or_concat' ((k, v) :: es) |>.resolve_left (by simp)
      rw [hfs, List.map_append, List.map_cons, List.map_nil] at e2
      obtain ⟨e7, e8⟩ := List.append_inj' e2 rfl
      subst e7
      obtain rfl : a = enc (k', v') := by simpa using e8.symm
      rw [e1, hfs] at hp0
      obtain ⟨h7, h8⟩ := removeElement_spec hp0 e5 e6 rfl hmx
      have hro : removeOldest c0 = removeElement c0 i := by
        simp only [removeOldest, e3, ne_eq, e4, not_false_eq_true, if_true]
      rw [hro, hfs, List.dropLast_concat]
      have hlen : fs.length = es.length := by
        have := congrArg List.length hfs
        simpa using this.symm
      refine ⟨by simpa using h7, h8, ?_, ?_⟩
      · intro hp; rw [hlen]; exact h.pos hp
      · intro hp
        have := h.neg hp
        rw [this] at hlen; simpa using hlen
    · rw [if_neg hc, if_neg hc]
      refine ⟨⟨_, by simpa [enc] using hp⟩, h.max_eq, ?_, ?_⟩
      · intro hp
        simp only [List.length_cons]; push_cast; omega
      · intro hp; omega

theorem step_spec (str : String → K) {max : Int} {c : LC K V} {es : List (K × V)} (h : Inv max c es) (o : Op K V) :
    (step str c o).2 = (Spec.Lru.step str GoValue.zero max es o).2 ∧
    Inv max (step str c o).1 (Spec.Lru.step str GoValue.zero max es o).1 := by
  obtain ⟨ids, hl⟩ := h.lnk
  cases o with
  | add k v =>
    cases k with
    | none => exact ⟨rfl, h⟩
    | some k => exact ⟨rfl, add_spec h k v⟩
  | get k => exact get_spec h str k
  | remove k =>
    cases k with
    | none =>
      refine ⟨rfl, ?_⟩
      have : lruRemove c none = c := by simp only [lruRemove, load_nil hl]
      simp only [step, remove, this, Spec.Lru.step]; exact h
    | some k => exact ⟨rfl, remove_spec h k⟩
  | removeMulti ks => exact ⟨rfl, removeMulti_spec str ks h⟩

theorem run_spec (str : String → K) {max : Int} {c : LC K V} {es : List (K × V)} (h : Inv max c es) (os : List (Op K V)) :
    run str c os = Spec.Lru.run str GoValue.zero max es os ∧ ∃ es', Inv max (final str c os) es' := by
  induction os generalizing c es with
  | nil => exact ⟨rfl, es, h⟩
  | cons o os ih =>
    obtain ⟨h1, h2⟩ := step_spec str h o
    obtain ⟨h4, h5⟩ := ih h2
    exact ⟨by simp only [run, Spec.Lru.run, h1, h4], h5⟩

end Gofer.Lru

namespace Gofer.Spec.Lru
open Gofer.Spec.Assoc
variable {K V : Type} [DecidableEq K]

theorem find_cons (k x : K) (v : V) (es : List (K × V)) : find x ((k, v) :: es) = if x = k then some v else find x es := by
  unfold find
  by_cases h : x = k
  · simp [h]
  · have : ¬ k = x := fun e => h e.symm
    simp [h, this]

theorem find_filter (p : K → Bool) (x : K) (es : List (K × V)) :
    find x (es.filter fun e => p e.1) = if p x then find x es else none := by
  induction es with
  | nil => simp [find]
  | cons e es ih =>
    obtain ⟨k, v⟩ := e
    rw [List.filter_cons]
    by_cases hp : p k = true
    · simp only [hp, if_true]
      rw [find_cons, find_cons, ih]
      by_cases hx : x = k
      · subst hx; simp [hp]
      · simp [hx]
    · simp only [hp, Bool.false_eq_true, if_false]
      rw [ih, find_cons]
      by_cases hx : x = k
      · subst hx; simp [hp]
      · simp [hx]

theorem find_without (k x : K) (es : List (K × V)) : find x (without k es) = if x = k then none else find x es := by
  unfold without
  have := find_filter (fun y => decide (y ≠ k)) x es
  rw [this]
  by_cases h : x = k <;> simp [h]

theorem plain_step (str : String → K) (zv : V) {es : List (K × V)} {m : K → Option V} (h : ∀ k, find k es = m k) (o : Op K V) :
    (step str zv 0 es o).2 = (plainStep str zv m o).2 ∧
    ∀ k, find k (step str zv 0 es o).1 = (plainStep str zv m o).1 k := by
  cases o with
  | add k v =>
    cases k with
    | none => exact ⟨rfl, h⟩
    | some k =>
      refine ⟨rfl, ?_⟩
      intro x
      simp only [step, plainStep, add]
      cases find k es with
      | none =>
        rw [if_neg (by simp), find_cons, h]
      | some w =>
        simp only
        rw [find_cons, find_without, h]
        by_cases hx : x = k <;> simp [hx]
  | get k =>
    cases k with
    | none => exact ⟨rfl, h⟩
    | some k =>
      simp only [step, plainStep, ← h k]
      cases hf : find k es with
      | none => exact ⟨rfl, h⟩
      | some w =>
        refine ⟨rfl, ?_⟩
        intro x
        simp only
        rw [find_cons, find_without, ← h x]
        by_cases hx : x = k <;> simp [hx, hf]
  | remove k =>
    cases k with
    | none => exact ⟨rfl, h⟩
    | some k => exact ⟨rfl, fun x => by simp only [step, plainStep, find_without, h]⟩
  | removeMulti ks =>
    refine ⟨rfl, fun x => ?_⟩
    simp only [step, plainStep, ← h]
    have := find_filter (fun y => decide (y ∉ ks.map str)) x es
    rw [this]
    by_cases hx : x ∈ ks.map str <;> simp [hx]

theorem plain_run (str : String → K) (zv : V) {es : List (K × V)} {m : K → Option V} (h : ∀ k, find k es = m k) (os : List (Op K V)) :
    run str zv 0 es os = plainRun str zv m os := by
  induction os generalizing es m with
  | nil => rfl
  | cons o os ih =>
    obtain ⟨h1, h2⟩ := plain_step str zv h o
    simp only [run, plainRun, h1, ih h2]

end Gofer.Spec.Lru
