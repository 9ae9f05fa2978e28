/-! # Counting in lists, and lookups in updated lists -/
namespace Gofer.Count

theorem cnt_set {α : Type} {p : α → Bool} {l : List α} {i : Nat} {c c' : α} (h : l[i]? = some c) :
    (l.set i c').countP p + (p c).toNat = l.countP p + (p c').toNat := by
  induction l generalizing i with
  | nil => simp at h
  | cons x xs ih =>
    cases i with
    | zero =>
      simp only [List.getElem?_cons_zero, Option.some.injEq] at h
      subst h
      simp only [List.set_cons_zero, List.countP_cons]
      cases p x <;> cases p c' <;> simp
    | succ i =>
      simp only [List.getElem?_cons_succ] at h
      simp only [List.set_cons_succ, List.countP_cons]
      have := ih h
      omega

theorem cnt_le {α : Type} {p q : α → Bool} (l : List α) (h : ∀ a, p a = true → q a = true) : l.countP p ≤ l.countP q :=
  List.countP_mono_left fun a _ => h a

theorem cnt_lt {α : Type} {p q : α → Bool} {l : List α} {i : Nat} {c : α} (hi : l[i]? = some c) (h : ∀ a, p a = true → q a = true)
    (hq : q c = true) (hp : p c = false) : l.countP p + 1 ≤ l.countP q := by
  induction l generalizing i with
  | nil => simp at hi
  | cons x xs ih =>
    cases i with
    | zero =>
      simp only [List.getElem?_cons_zero, Option.some.injEq] at hi
      subst hi
      have := cnt_le xs h
      simp only [List.countP_cons, hq, hp]
      simp
      exact this
    | succ i =>
      simp only [List.getElem?_cons_succ] at hi
      have := ih hi
      simp only [List.countP_cons]
      have := h x
      cases hpx : p x <;> cases hqx : q x <;> simp_all <;> omega

theorem cnt_pos {α : Type} {p : α → Bool} {l : List α} {i : Nat} {c : α} (hi : l[i]? = some c) (hp : p c = true) : 1 ≤ l.countP p :=
  List.countP_pos_iff.2 ⟨c, List.mem_of_getElem? hi, hp⟩

theorem cnt_one {α : Type} {p : α → Bool} {l : List α} {i j : Nat} {c d : α} (hl : l.countP p ≤ 1) (hi : l[i]? = some c) (hj : l[j]? = some d)
    (hc : p c = true) (hd : p d = true) : i = j := by
  induction l generalizing i j with
  | nil => simp at hi
  | cons x xs ih =>
    simp only [List.countP_cons] at hl
    cases i with
    | zero =>
      cases j with
      | zero => rfl
      | succ j =>
        simp only [List.getElem?_cons_zero, Option.some.injEq, List.getElem?_cons_succ] at hi hj
        subst hi
        have := cnt_pos hj hd
        simp only [hc, if_true] at hl
        omega
    | succ i =>
      cases j with
      | zero =>
        simp only [List.getElem?_cons_zero, Option.some.injEq, List.getElem?_cons_succ] at hi hj
        subst hj
        have := cnt_pos hi hc
        simp only [hd, if_true] at hl
        omega
      | succ j =>
        simp only [List.getElem?_cons_succ] at hi hj
        rw [ih (by omega) hi hj]

theorem get_set_cases {α : Type} {log : List α} {i j : Nat} {c' d : α} (h : (log.set i c')[j]? = some d) :
    (j = i ∧ d = c') ∨ (j ≠ i ∧ log[j]? = some d) := by
  rw [List.getElem?_set] at h
  split at h
  · rename_i hx
    split at h
    · cases h; exact .inl ⟨hx.symm, rfl⟩
    · cases h
  · rename_i hx
    exact .inr ⟨fun e => hx e.symm, h⟩

theorem get_set_self {α : Type} {log : List α} {i : Nat} {c c' : α} (h : log[i]? = some c) : (log.set i c')[i]? = some c' := by
  have : i < log.length := (List.getElem?_eq_some_iff.1 h).1
  simp [this]

theorem get_set_ne {α : Type} {log : List α} {i j : Nat} {c' : α} (h : j ≠ i) : (log.set i c')[j]? = log[j]? := by
  rw [List.getElem?_set, if_neg (Ne.symm h)]

theorem get_app {α : Type} {log : List α} {c d : α} {j : Nat} (h : (log ++ [c])[j]? = some d) :
    (log[j]? = some d ∧ j < log.length) ∨ (j = log.length ∧ d = c) := by
  rcases Nat.lt_trichotomy j log.length with hj | hj | hj
  · rw [List.getElem?_append_left hj] at h
    exact .inl ⟨h, hj⟩
  · subst hj
    simp at h
    exact .inr ⟨rfl, h.symm⟩
  · rw [List.getElem?_append_right (by omega)] at h
    rw [List.getElem?_eq_none (by simp; omega)] at h
    cases h

end Gofer.Count
