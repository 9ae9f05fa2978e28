import Verif.Proof.GoList
import Verif.Proof.AMap

/-! # A map from keys to elements of a linked list, kept in step -/
namespace Gofer
open GoList
variable {K α : Type} [DecidableEq K]

/-- `m` maps the key of each entry of `l` (in ring order `ids`, with values `es`) to its element. -/
structure Lnk (key : α → K) (m : AMap K Nat) (l : GoList α) (ids : List Nat) (es : List α) : Prop where
  repr : Repr l ids
  vals : ids.map l.val = es.map some
  nodup : (es.map key).Nodup
  map : ∀ k i, m.load k = some i ↔ (i ∈ ids ∧ ∃ a, l.val i = some a ∧ key a = k)

namespace Lnk
variable {key : α → K} {m : AMap K Nat} {l : GoList α} {ids : List Nat} {es : List α}

theorem length_eq (h : Lnk key m l ids es) : ids.length = es.length := by
  have := congrArg List.length h.vals; simpa using this

theorem new : Lnk key (AMap.empty : AMap K Nat) (GoList.new : GoList α) [] [] :=
  ⟨repr_new, rfl, List.nodup_nil, by simp⟩

theorem init (h : Lnk key m l ids es) : Lnk key (AMap.empty : AMap K Nat) l.init [] [] :=
  ⟨repr_init h.repr, rfl, List.nodup_nil, by simp⟩

/-- Split at an element. -/
theorem split (h : Lnk key m l ids es) {i : Nat} (hi : i ∈ ids) :
    ∃ xs ys exs a eys, ids = xs ++ i :: ys ∧ es = exs ++ a :: eys ∧ l.val i = some a ∧
      xs.map l.val = exs.map some ∧ ys.map l.val = eys.map some := by
  obtain ⟨xs, ys, rfl⟩ := List.append_of_mem hi
  have hv := h.vals
  rw [List.map_append, List.map_cons] at hv
  obtain ⟨exs, r, rfl, h1, h2⟩ := List.map_eq_append_iff.1 hv.symm
  obtain ⟨a, eys, rfl, h3, h4⟩ := List.map_eq_cons_iff.1 h2
  exact ⟨xs, ys, exs, a, eys, rfl, rfl, h3.symm, h1.symm, h4.symm⟩

theorem load_some (h : Lnk key m l ids es) {k : K} {i : Nat} (hl : m.load k = some i) :
    ∃ xs ys exs a eys, ids = xs ++ i :: ys ∧ es = exs ++ a :: eys ∧ l.val i = some a ∧ key a = k ∧
      xs.map l.val = exs.map some ∧ ys.map l.val = eys.map some := by
  obtain ⟨hi, a, ha, hk⟩ := (h.map k i).1 hl
  obtain ⟨xs, ys, exs, b, eys, h1, h2, h3, h4, h5⟩ := h.split hi
  rw [ha] at h3
  obtain rfl := Option.some.inj h3
  exact ⟨xs, ys, exs, a, eys, h1, h2, ha, hk, h4, h5⟩

theorem mem_val (h : Lnk key m l ids es) {a : α} (ha : a ∈ es) : ∃ i ∈ ids, l.val i = some a := by
  have : some a ∈ ids.map l.val := by rw [h.vals]; exact List.mem_map_of_mem ha
  obtain ⟨i, hi, hv⟩ := List.mem_map.1 this
  exact ⟨i, hi, hv⟩

theorem load_none (h : Lnk key m l ids es) {k : K} : m.load k = none ↔ k ∉ es.map key := by
  constructor
  · intro hl hm
    obtain ⟨a, ha, rfl⟩ := List.mem_map.1 hm
    obtain ⟨i, hi, hv⟩ := h.mem_val ha
    rw [(h.map (key a) i).2 ⟨hi, a, hv, rfl⟩] at hl
    simp at hl
  · intro hm
    cases hl : m.load k with
    | none => rfl
    | some i =>
      obtain ⟨xs, ys, exs, a, eys, h1, h2, h3, h4, _⟩ := h.load_some hl
      exact absurd (by rw [h2, ← h4]; simp) hm

theorem isSome_iff (h : Lnk key m l ids es) (k : K) : (m.load k).isSome ↔ k ∈ es.map key := by
  rw [← not_iff_not, ← h.load_none]; simp

theorem size_eq (h : Lnk key m l ids es) : m.size = es.length := by
  have hp : (m.entries.map Prod.fst).Perm (es.map key) := by
    rw [List.perm_ext_iff_of_nodup m.nodup h.nodup]
    intro k
    rw [← AMap.load_isSome_iff, h.isSome_iff]
  have := hp.length_eq
  simpa [AMap.size] using this

/-- Values of other addresses are untouched by `PushFront`. -/
theorem vals_push (h : Repr l ids) (v : α) (xs : List Nat) (hx : ∀ i ∈ xs, i ∈ ids) :
    xs.map (l.pushFront v).1.val = xs.map l.val := by
  apply List.map_congr_left
  intro i hi
  rw [pushFront_fst_val, upd_ne]
  rintro rfl
  exact not_mem_fresh h (List.mem_cons_of_mem _ (hx _ hi))

theorem push (h : Lnk key m l ids es) (a : α) (hk : key a ∉ es.map key) :
    Lnk key (m.store (key a) (l.pushFront a).2) (l.pushFront a).1 ((l.pushFront a).2 :: ids) (a :: es) := by
  refine ⟨repr_pushFront h.repr a, ?_, ?_, ?_⟩
  · rw [List.map_cons, List.map_cons, vals_push h.repr a ids (fun _ h => h), h.vals, pushFront_fst_val, pushFront_snd]
    simp
  · rw [List.map_cons, List.nodup_cons]; exact ⟨hk, h.nodup⟩
  · intro k i
    have hfr := not_mem_fresh h.repr
    rw [AMap.load_store, pushFront_fst_val, pushFront_snd]
    by_cases hik : k = key a
    · subst hik
      rw [if_pos rfl]
      constructor
      · intro he
        obtain rfl := Option.some.inj he
        exact ⟨by simp, a, by simp, rfl⟩
      · rintro ⟨hi, b, hb, hkb⟩
        by_cases hif : i = l.fresh
        · rw [hif]
        · exfalso
          rw [upd_ne _ _ hif] at hb
          have := (h.map (key a) i).2 ⟨by simpa [hif] using hi, b, hb, hkb⟩
          rw [(h.load_none).2 hk] at this
          simp at this
    · rw [if_neg hik, h.map]
      constructor
      · rintro ⟨hi, b, hb, hkb⟩
        have hif : i ≠ l.fresh := by
          rintro rfl; exact hfr (List.mem_cons_of_mem _ hi)
        exact ⟨by simp [hi], b, by rw [upd_ne _ _ hif]; exact hb, hkb⟩
      · rintro ⟨hi, b, hb, hkb⟩
        by_cases hif : i = l.fresh
        · rw [hif] at hb
          simp at hb
          subst hb; exact absurd hkb.symm hik
        · rw [upd_ne _ _ hif] at hb
          exact ⟨by simpa [hif] using hi, b, hb, hkb⟩

theorem keys_split {exs eys : List α} {a : α} (hn : ((exs ++ a :: eys).map key).Nodup) :
    ((exs ++ eys).map key).Nodup ∧ key a ∉ (exs ++ eys).map key := by
  rw [List.map_append, List.map_cons] at hn
  rw [List.map_append]
  have h1 := List.nodup_middle.1 hn
  rw [List.nodup_cons] at h1
  exact ⟨h1.2, h1.1⟩

theorem ids_split {xs ys : List Nat} {i : Nat} (h : Repr l (xs ++ i :: ys)) : i ∉ xs ++ ys := by
  have := (List.nodup_cons.1 h.nodup).2
  exact (List.nodup_cons.1 (List.nodup_middle.1 this)).1

theorem remove {xs ys : List Nat} {i : Nat} {exs eys : List α} {a : α}
    (h : Lnk key m l (xs ++ i :: ys) (exs ++ a :: eys)) (ha : l.val i = some a)
    (hx : xs.map l.val = exs.map some) (hy : ys.map l.val = eys.map some) :
    Lnk key (m.delete (key a)) (l.remove i) (xs ++ ys) (exs ++ eys) := by
  obtain ⟨hn, hka⟩ := keys_split h.nodup
  have hi := ids_split h.repr
  refine ⟨repr_remove h.repr, ?_, hn, ?_⟩
  · rw [remove_val, List.map_append, List.map_append, hx, hy]
  · intro k j
    rw [AMap.load_delete, remove_val]
    by_cases hk : k = key a
    · subst hk
      rw [if_pos rfl]
      constructor
      · intro hc; simp at hc
      · rintro ⟨hj, b, hb, hkb⟩
        exfalso
        apply hka
        have : some b ∈ (xs ++ ys).map l.val := List.mem_map.2 ⟨j, hj, hb⟩
        rw [List.map_append, hx, hy, ← List.map_append, List.mem_map] at this
        obtain ⟨c, hc, hcb⟩ := this
        obtain rfl := Option.some.inj hcb
        exact List.mem_map.2 ⟨c, hc, hkb⟩
    · rw [if_neg hk, h.map]
      constructor
      · rintro ⟨hj, b, hb, hkb⟩
        refine ⟨?_, b, hb, hkb⟩
        have : j ≠ i := by
          rintro rfl
          rw [ha] at hb
          obtain rfl := Option.some.inj hb
          exact hk hkb.symm
        simp only [List.mem_append, List.mem_cons] at hj ⊢
        tauto
      · rintro ⟨hj, b, hb, hkb⟩
        refine ⟨?_, b, hb, hkb⟩
        simp only [List.mem_append, List.mem_cons] at hj ⊢
        tauto

theorem moveToFront {xs ys : List Nat} {i : Nat} {exs eys : List α} {a : α}
    (h : Lnk key m l (xs ++ i :: ys) (exs ++ a :: eys)) (ha : l.val i = some a)
    (hx : xs.map l.val = exs.map some) (hy : ys.map l.val = eys.map some) :
    Lnk key m (l.moveToFront i) (i :: (xs ++ ys)) (a :: (exs ++ eys)) := by
  refine ⟨repr_moveToFront h.repr, ?_, ?_, ?_⟩
  · rw [moveToFront_val, List.map_cons, List.map_append, hx, hy, ha]; simp
  · have := h.nodup
    rw [List.map_append, List.map_cons] at this
    rw [List.map_cons, List.map_append]
    exact List.nodup_middle.1 this
  · intro k j
    rw [moveToFront_val, h.map]
    have : j ∈ xs ++ i :: ys ↔ j ∈ i :: (xs ++ ys) := by
      simp only [List.mem_append, List.mem_cons]; tauto
    rw [this]

/-- Overwrite an entry keeping its key. -/
theorem setVal {xs ys : List Nat} {i : Nat} {exs eys : List α} {a b : α}
    (h : Lnk key m l (xs ++ i :: ys) (exs ++ a :: eys)) (ha : l.val i = some a) (hb : key b = key a)
    (hx : xs.map l.val = exs.map some) (hy : ys.map l.val = eys.map some) :
    Lnk key m (l.setVal i b) (xs ++ i :: ys) (exs ++ b :: eys) ∧
      xs.map (l.setVal i b).val = exs.map some ∧ ys.map (l.setVal i b).val = eys.map some := by
  have hi := ids_split h.repr
  have hx' : xs.map (l.setVal i b).val = exs.map some := by
    rw [← hx]
    apply List.map_congr_left
    intro j hj
    simp only [GoList.setVal]
    rw [upd_ne]; rintro rfl; exact hi (by simp [hj])
  have hy' : ys.map (l.setVal i b).val = eys.map some := by
    rw [← hy]
    apply List.map_congr_left
    intro j hj
    simp only [GoList.setVal]
    rw [upd_ne]; rintro rfl; exact hi (by simp [hj])
  refine ⟨⟨repr_setVal h.repr i b, ?_, ?_, ?_⟩, hx', hy'⟩
  · rw [List.map_append, List.map_cons, hx', hy']
    simp [GoList.setVal]
  · have := h.nodup
    simpa [hb] using this
  · intro k j
    rw [h.map]
    by_cases hj : j = i
    · subst hj
      simp [GoList.setVal, ha, hb]
    · simp only [GoList.setVal]
      rw [upd_ne _ _ hj]

/-- `PushFront` of a new element for an existing key followed by removal of the old element. -/
theorem replace {xs ys : List Nat} {i : Nat} {exs eys : List α} {a b : α}
    (h : Lnk key m l (xs ++ i :: ys) (exs ++ a :: eys)) (ha : l.val i = some a) (hb : key b = key a)
    (hx : xs.map l.val = exs.map some) (hy : ys.map l.val = eys.map some) :
    Lnk key (m.store (key a) (l.pushFront b).2) ((l.pushFront b).1.remove i)
      ((l.pushFront b).2 :: (xs ++ ys)) (b :: (exs ++ eys)) := by
  obtain ⟨hn, hka⟩ := keys_split h.nodup
  have hi := ids_split h.repr
  have hfr := not_mem_fresh h.repr
  have hrp := repr_pushFront h.repr b
  have hrp' : Repr (l.pushFront b).1 (((l.pushFront b).2 :: xs) ++ i :: ys) := hrp
  refine ⟨by have := repr_remove hrp'; exact this, ?_, ?_, ?_⟩
  · rw [remove_val, List.map_cons, vals_push h.repr b (xs ++ ys), List.map_append, hx, hy, pushFront_fst_val,
      pushFront_snd]
    · simp
    · intro j hj; simp only [List.mem_append, List.mem_cons] at *; tauto
  · rw [List.map_cons, List.nodup_cons, hb]; exact ⟨hka, hn⟩
  · intro k j
    rw [AMap.load_store, remove_val, pushFront_fst_val, pushFront_snd]
    by_cases hk : k = key a
    · subst hk
      rw [if_pos rfl]
      constructor
      · intro he
        obtain rfl := Option.some.inj he
        exact ⟨by simp, b, by simp, hb⟩
      · rintro ⟨hj, c, hc, hkc⟩
        by_cases hjf : j = l.fresh
        · rw [hjf]
        · exfalso
          rw [upd_ne _ _ hjf] at hc
          have hj' : j ∈ xs ++ ys := by simpa [hjf] using hj
          apply hka
          have : some c ∈ (xs ++ ys).map l.val := List.mem_map.2 ⟨j, hj', hc⟩
          rw [List.map_append, hx, hy, ← List.map_append, List.mem_map] at this
          obtain ⟨d, hd, hdc⟩ := this
          obtain rfl := Option.some.inj hdc
          exact List.mem_map.2 ⟨d, hd, hkc⟩
    · rw [if_neg hk, h.map]
      constructor
      · rintro ⟨hj, c, hc, hkc⟩
        have hjf : j ≠ l.fresh := by
          rintro rfl; exact hfr (List.mem_cons_of_mem _ hj)
        have hji : j ≠ i := by
          rintro rfl
          rw [ha] at hc
          obtain rfl := Option.some.inj hc
          exact hk hkc.symm
        refine ⟨?_, c, by rw [upd_ne _ _ hjf]; exact hc, hkc⟩
        simp only [List.mem_append, List.mem_cons] at hj ⊢
        tauto
      · rintro ⟨hj, c, hc, hkc⟩
        by_cases hjf : j = l.fresh
        · rw [hjf] at hc
          simp at hc
          subst hc
          exact absurd (hkc.symm.trans hb) hk
        · rw [upd_ne _ _ hjf] at hc
          refine ⟨?_, c, hc, hkc⟩
          simp only [List.mem_append, List.mem_cons] at hj ⊢
          tauto

/-- The back element of a non-empty list. -/
theorem back_some (h : Lnk key m l ids es) (hne : es ≠ []) :
    ∃ xs i exs a, ids = xs ++ [i] ∧ es = exs ++ [a] ∧ l.back = i ∧ i ≠ 0 ∧ l.val i = some a ∧
      xs.map l.val = exs.map some := by
  have hb := back_eq h.repr
  obtain ⟨exs, a, rfl⟩ := List.eq_nil_or_concat' es |>.resolve_left hne
  have hv := h.vals
  rw [List.map_append, List.map_cons, List.map_nil] at hv
  obtain ⟨xs, r, rfl, h1, h2⟩ := List.map_eq_append_iff.1 hv
  obtain ⟨i, r', rfl, h3, h4⟩ := List.map_eq_cons_iff.1 h2
  obtain rfl : r' = [] := by simpa using h4
  refine ⟨xs, i, exs, a, rfl, rfl, ?_, h.repr.pos i (by simp), h3, h1⟩
  rw [hb]; simp

theorem back_none (h : Lnk key m l ids []) : l.back = 0 := by
  have : ids = [] := by simpa using h.length_eq
  subst this
  rw [back_eq h.repr]; rfl

theorem front_some {a : α} (h : Lnk key m l ids (a :: es)) : l.front ≠ 0 ∧ l.val l.front = some a := by
  have hb := front_eq h.repr
  have hv := h.vals
  rw [List.map_cons] at hv
  obtain ⟨i, r, rfl, h3, h4⟩ := List.map_eq_cons_iff.1 hv
  rw [hb]
  exact ⟨h.repr.pos i (by simp), h3⟩

theorem front_none (h : Lnk key m l ids []) : l.front = 0 := by
  have : ids = [] := by simpa using h.length_eq
  subst this
  rw [front_eq h.repr]; rfl

theorem len_eq (h : Lnk key m l ids es) : l.len = es.length := by
  rw [h.repr.len, h.length_eq]

end Lnk
end Gofer
