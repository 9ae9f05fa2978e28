import Verif.Spec.FastFileRel
import Verif.Spec.FileAt
/-!
# Lemmas about handles on one file
-/
namespace Gofer.FastFile
open Gofer.Spec.FileAt

theorem created_append (as bs : List Call) : created (as ++ bs) = created as ++ created bs := by
  induction as with
  | nil => rfl
  | cons a as ih => cases a <;> simp [created, ih]

theorem run_append {s t u : St} {as bs : List Call} {o o' : List Out} (h : run s as = some (t, o)) (h' : run t bs = some (u, o')) :
    run s (as ++ bs) = some (u, o ++ o') := by
  induction as generalizing s o with
  | nil => simp only [run, Option.some.injEq, Prod.mk.injEq] at h; obtain ⟨rfl, rfl⟩ := h; simpa using h'
  | cons a as ih =>
    simp only [run, Option.bind_eq_bind, Option.bind_eq_some_iff, Prod.exists] at h
    obtain ⟨t1, o1, h1, u1, o2, h2, h3⟩ := h
    simp only [Option.pure_def, Option.some.injEq, Prod.mk.injEq] at h3
    obtain ⟨rfl, rfl⟩ := h3
    simp [run, h1, ih h2]

theorem run_cons {s t : St} {c : Call} {cs : List Call} {o : List Out} (h : run s (c :: cs) = some (t, o)) :
    ∃ s' o1 o2, step s c = some (s', o1) ∧ run s' cs = some (t, o2) ∧ o = o1 :: o2 := by
  simp only [run, Option.bind_eq_bind, Option.bind_eq_some_iff, Prod.exists] at h
  obtain ⟨t1, o1, h1, u1, o2, h2, h3⟩ := h
  simp only [Option.pure_def, Option.some.injEq, Prod.mk.injEq] at h3
  obtain ⟨rfl, rfl⟩ := h3
  exact ⟨t1, o1, o2, h1, h2, rfl⟩

/-- Induction over a run with an invariant. -/
theorem run_inv {I : St → Prop} {P : Call → Prop} (hs : ∀ s c t o, I s → P c → step s c = some (t, o) → I t)
    {s t : St} {cs : List Call} {o : List Out} (h : run s cs = some (t, o)) (hi : I s) (hp : ∀ c ∈ cs, P c) : I t := by
  induction cs generalizing s o with
  | nil => simp only [run, Option.some.injEq, Prod.mk.injEq] at h; obtain ⟨rfl, rfl⟩ := h; exact hi
  | cons c cs ih =>
    obtain ⟨s', o1, o2, h1, h2, rfl⟩ := run_cons h
    exact ih h2 (hs _ _ _ _ hi (hp c (by simp)) h1) (fun c hc => hp c (by simp [hc]))

/-- The cases of a call on a handle. -/
theorem step_handle {s t : St} {c : Call} {o : Out} {h : Nat} (hs : step s c = some (t, o)) (ht : target c = some h) :
    ∃ x y, s.handles[h]? = some x ∧ y.append = x.append ∧
      (t.handles = s.handles.set h y) := by
  cases c <;> simp only [target, Option.some.injEq, reduceCtorEq] at ht <;> subst ht <;>
    simp only [step, Option.bind_eq_bind, Option.bind_eq_some_iff, Option.pure_def, Option.some.injEq, Prod.mk.injEq] at hs <;>
    obtain ⟨x, hx, rfl, rfl⟩ := hs
  · refine ⟨x, _, hx, ?_, rfl⟩; rfl
  · refine ⟨x, _, hx, ?_, rfl⟩; rfl
  · exact ⟨x, x, hx, rfl, by
      obtain ⟨hl, he⟩ := List.getElem?_eq_some_iff.mp hx
      subst he; exact (List.set_getElem_self hl).symm⟩
  · exact ⟨x, x, hx, rfl, by
      obtain ⟨hl, he⟩ := List.getElem?_eq_some_iff.mp hx
      subst he; exact (List.set_getElem_self hl).symm⟩
  · refine ⟨x, _, hx, ?_, rfl⟩; rfl
  · refine ⟨x, _, hx, ?_, rfl⟩; rfl

theorem step_new {s t : St} {c : Call} {o : Out} (hs : step s c = some (t, o)) (ht : target c = none) :
    ∃ a, created [c] = [a] ∧ t = { s with handles := s.handles ++ [fresh s.file a] } := by
  cases c <;> simp only [target, reduceCtorEq] at ht <;>
    simp only [step, Option.some.injEq, Prod.mk.injEq] at hs <;> obtain ⟨rfl, rfl⟩ := hs
  · exact ⟨true, rfl, rfl⟩
  · rename_i a; exact ⟨a, rfl, rfl⟩

theorem created_target {c : Call} {h : Nat} (ht : target c = some h) : created [c] = [] := by
  cases c <;> simp_all [target, created]

theorem map_set_same {l : List Handle} {h : Nat} {x y : Handle} (hx : l[h]? = some x) (e : y.append = x.append) :
    (l.set h y).map (·.append) = l.map (·.append) := by
  obtain ⟨hl, he⟩ := List.getElem?_eq_some_iff.mp hx
  rw [List.map_set, e, ← he]
  have : l[h].append = (l.map (·.append))[h]'(by simpa using hl) := by simp
  rw [this]; exact List.set_getElem_self _

/-- The flags of the handles are those of the calls that made them. -/
theorem step_flags {s t : St} {c : Call} {o : Out} (hs : step s c = some (t, o)) :
    t.handles.map (·.append) = s.handles.map (·.append) ++ created [c] := by
  rcases ht : target c with _ | h
  · obtain ⟨a, ha, rfl⟩ := step_new hs ht
    simp [ha, fresh]
  · obtain ⟨x, y, hx, hy, e⟩ := step_handle hs ht
    rw [e, created_target ht, List.append_nil, map_set_same hx hy]

theorem run_flags {s t : St} {cs : List Call} {o : List Out} (hr : run s cs = some (t, o)) :
    t.handles.map (·.append) = s.handles.map (·.append) ++ created cs := by
  induction cs generalizing s o with
  | nil => simp only [run, Option.some.injEq, Prod.mk.injEq] at hr; obtain ⟨rfl, rfl⟩ := hr; simp [created]
  | cons c cs ih =>
    obtain ⟨s', o1, o2, h1, h2, rfl⟩ := run_cons hr
    rw [ih h2, step_flags h1, List.append_assoc, ← created_append]; rfl

theorem start_flags {f : List UInt8} {t : St} {cs : List Call} {o : List Out} (hr : run (start f) cs = some (t, o)) :
    t.handles.map (·.append) = created cs := by
  simpa [start] using run_flags hr

theorem flag_at {f : List UInt8} {t : St} {cs : List Call} {o : List Out} {h : Nat} {a : Bool} (hr : run (start f) cs = some (t, o))
    (hc : (created cs)[h]? = some a) : ∃ x, t.handles[h]? = some x ∧ x.append = a := by
  rw [← start_flags hr, List.getElem?_map, Option.map_eq_some_iff] at hc
  exact hc

/-- Every handle is in append mode. -/
def AllAppend (s : St) : Prop := ∀ x ∈ s.handles, x.append = true

theorem allAppend_iff {s : St} : AllAppend s ↔ ∀ a ∈ s.handles.map (·.append), a = true := by
  simp [AllAppend]

theorem step_allAppend {s t : St} {c : Call} {o : Out} (ha : AllAppend s) (hc : ∀ a ∈ created [c], a = true)
    (hs : step s c = some (t, o)) : AllAppend t := by
  rw [allAppend_iff, step_flags hs]
  intro a h
  rcases List.mem_append.mp h with h | h
  · exact allAppend_iff.mp ha a h
  · exact hc a h

theorem mem_handles {s : St} {h : Nat} {x : Handle} (hx : s.handles[h]? = some x) : x ∈ s.handles := List.mem_of_getElem? hx

/-- What a write through a handle in append mode does. -/
theorem osWrite_append {f : List UInt8} {x : Handle} {d : List UInt8} (ha : x.append = true) (hl : x.live = true) :
    ∃ p, osWrite f x d = (f ++ d, p, d.length, none) ∧ (d ≠ [] → p = f.length + d.length) := by
  cases d with
  | nil => exact ⟨x.pos, by simp [osWrite, hl], by simp⟩
  | cons b d => exact ⟨_, by simp [osWrite, hl, ha]; rfl, fun _ => by simp⟩

theorem osWrite_closed {f : List UInt8} {x : Handle} {d : List UInt8} (hl : x.live = false) :
    osWrite f x d = (f, x.pos, 0, some .closed) := by
  simp [osWrite, hl]

/-- With handles in append mode a file only grows. -/
theorem step_grows {s t : St} {c : Call} {o : Out} (ha : AllAppend s) (hs : step s c = some (t, o)) :
    ∃ d, t.file = s.file ++ d := by
  cases c <;> simp only [step, Option.bind_eq_bind, Option.bind_eq_some_iff, Option.pure_def, Option.some.injEq, Prod.mk.injEq] at hs
  · obtain ⟨rfl, _⟩ := hs; exact ⟨[], by simp⟩
  · obtain ⟨rfl, _⟩ := hs; exact ⟨[], by simp⟩
  · rename_i i bs
    obtain ⟨x, hx, rfl, rfl⟩ := hs
    cases hl : x.live
    · simp only [osWrite_closed hl]; exact ⟨[], by simp⟩
    · obtain ⟨p, e, _⟩ := osWrite_append (f := s.file) (d := bs) (ha x (mem_handles hx)) hl
      simp only [e]; exact ⟨_, rfl⟩
  · rename_i i bs
    obtain ⟨x, hx, rfl, rfl⟩ := hs
    cases hl : x.live
    · simp only [osWrite_closed hl]; exact ⟨[], by simp⟩
    · obtain ⟨p, e, _⟩ := osWrite_append (f := s.file) (d := bs) (ha x (mem_handles hx)) hl
      simp only [e]; exact ⟨_, rfl⟩
  · obtain ⟨x, hx, rfl, rfl⟩ := hs
    have := ha x (mem_handles hx)
    simp only [osWriteAt, this]
    exact ⟨[], by simp⟩
  all_goals
    obtain ⟨x, hx, rfl, rfl⟩ := hs
    exact ⟨[], by simp⟩

theorem run_grows {s t : St} {cs : List Call} {o : List Out} (ha : AllAppend s) (hc : ∀ a ∈ created cs, a = true)
    (hr : run s cs = some (t, o)) : ∃ d, t.file = s.file ++ d := by
  induction cs generalizing s o with
  | nil => simp only [run, Option.some.injEq, Prod.mk.injEq] at hr; obtain ⟨rfl, rfl⟩ := hr; exact ⟨[], by simp⟩
  | cons c cs ih =>
    obtain ⟨s', o1, o2, h1, h2, rfl⟩ := run_cons hr
    have e : created (c :: cs) = created [c] ++ created cs := by rw [← created_append]; rfl
    rw [e] at hc
    obtain ⟨d, hd⟩ := step_grows ha h1
    obtain ⟨d', hd'⟩ := ih (step_allAppend ha (fun a h => hc a (by simp [h])) h1) (fun a h => hc a (by simp [h])) h2
    exact ⟨d ++ d', by rw [hd', hd, List.append_assoc]⟩

theorem start_allAppend {f : List UInt8} {t : St} {cs : List Call} {o : List Out} (hr : run (start f) cs = some (t, o))
    (hc : ∀ a ∈ created cs, a = true) : AllAppend t := by
  rw [allAppend_iff, start_flags hr]; exact hc

theorem holds_grow {f g d : List UInt8} {off : Nat} (h : Holds f off d) : Holds (f ++ g) off d := by
  obtain ⟨a, b, e, l⟩ := h
  exact ⟨a, b ++ g, by rw [e]; simp, l⟩

theorem holds_read {f d : List UInt8} {off : Nat} (h : Holds f off d) : (f.drop off).take d.length = d := by
  obtain ⟨a, b, rfl, rfl⟩ := h
  rw [List.append_assoc, List.drop_left, List.take_left]

theorem getElem?_put (f d : List UInt8) (off i : Nat) : (put f off d)[i]? =
    if i < off then (if i < f.length then f[i]? else some 0)
    else if i < off + d.length then d[i - off]?
    else f[i]? := by
  unfold put
  have hl : ((f ++ List.replicate (off - f.length) 0).take off).length = off := by
    simp; omega
  rw [List.append_assoc]
  by_cases h1 : i < off
  · rw [if_pos h1, List.getElem?_append_left (by omega), List.getElem?_take_of_lt h1]
    by_cases h2 : i < f.length
    · rw [if_pos h2, List.getElem?_append_left h2]
    · rw [if_neg h2, List.getElem?_append_right (by omega), List.getElem?_replicate]
      rw [if_pos (by omega)]
  · rw [if_neg h1, List.getElem?_append_right (by omega), hl]
    by_cases h2 : i < off + d.length
    · rw [if_pos h2, List.getElem?_append_left (by omega)]
    · rw [if_neg h2, List.getElem?_append_right (by omega), List.getElem?_drop]
      have e : off + d.length + (i - off - d.length) = i := by omega
      rw [e]
      by_cases h3 : i < f.length
      · rw [List.getElem?_append_left h3]
      · rw [List.getElem?_append_right (by omega), List.getElem?_replicate, if_neg (by omega),
          List.getElem?_eq_none (by omega)]

theorem put_length (f d : List UInt8) (off : Nat) : (put f off d).length = max f.length (off + d.length) := by
  simp [put]; omega

theorem put_put (f d : List UInt8) (off : Nat) : Put f (put f off d) off d := by
  refine ⟨put_length f d off, ?_, ?_, ?_⟩
  · intro i hi
    rw [getElem?_put, if_neg (by omega), if_pos (by omega), Nat.add_sub_cancel_left]
  · intro i hi hn
    rw [getElem?_put]
    by_cases h : i < off
    · rw [if_pos h, if_pos hi]
    · rw [if_neg h, if_neg (by omega)]
  · intro i h1 h2
    rw [getElem?_put, if_pos h2, if_neg (by omega)]

theorem put_end (f d : List UInt8) : put f f.length d = f ++ d := by
  simp [put]

/-- What a write through a handle not in append mode does when the position is at the end. -/
theorem osWrite_end {f : List UInt8} {x : Handle} {d : List UInt8} (hl : x.live = true) (hp : x.pos = f.length) :
    osWrite f x d = (f ++ d, f.length + d.length, d.length, none) := by
  cases d with
  | nil => simp [osWrite, hl, hp]
  | cons b d => cases ha : x.append <;> simp [osWrite, hl, ha, hp, put_end]

/-- The handle `h` has counted the whole file. -/
def Counted (h : Nat) (s : St) : Prop := ∃ x, s.handles[h]? = some x ∧ x.offset = s.file.length

theorem osWrite_empty {f : List UInt8} {x : Handle} : ∃ e, osWrite f x [] = (f, x.pos, 0, e) := by
  cases h : x.live <;> simp [osWrite, h]

theorem step_counted {h : Nat} {s t : St} {c : Call} {o : Out} (ha : AllAppend s) (hc : Counted h s) (hf : foreignWrite h c = false)
    (hs : step s c = some (t, o)) : Counted h t := by
  obtain ⟨x, hx, he⟩ := hc
  have hlt : h < s.handles.length := (List.getElem?_eq_some_iff.mp hx).1
  cases c <;> simp only [step, Option.bind_eq_bind, Option.bind_eq_some_iff, Option.pure_def, Option.some.injEq, Prod.mk.injEq] at hs
  · obtain ⟨rfl, _⟩ := hs; exact ⟨x, by simp [List.getElem?_append_left hlt, hx], he⟩
  · obtain ⟨rfl, _⟩ := hs; exact ⟨x, by simp [List.getElem?_append_left hlt, hx], he⟩
  · rename_i i bs
    obtain ⟨y, hy, rfl, rfl⟩ := hs
    by_cases hi : i = h
    · subst hi
      rw [hx] at hy; cases hy
      cases hl : x.live
      · simp only [osWrite_closed hl]
        exact ⟨_, by simp [hlt]; rfl, by simpa using he⟩
      · obtain ⟨p, e, _⟩ := osWrite_append (f := s.file) (d := bs) (ha x (mem_handles hx)) hl
        simp only [e]
        refine ⟨_, by simp [hlt]; rfl, ?_⟩
        cases bs <;> simp [he]
    · have : bs = [] := by simpa [foreignWrite, hi] using hf
      subst this
      obtain ⟨e, he'⟩ := osWrite_empty (f := s.file) (x := y)
      simp only [he']
      exact ⟨x, by simp [List.getElem?_set_ne hi, hx], he⟩
  · rename_i i bs
    obtain ⟨y, hy, rfl, rfl⟩ := hs
    by_cases hi : i = h
    · subst hi
      rw [hx] at hy; cases hy
      cases hl : x.live
      · simp only [osWrite_closed hl]
        exact ⟨_, by simp [hlt]; rfl, by simpa using he⟩
      · obtain ⟨p, e, _⟩ := osWrite_append (f := s.file) (d := bs) (ha x (mem_handles hx)) hl
        simp only [e]
        exact ⟨_, by simp [hlt]; rfl, by simp [he]⟩
    · have : bs = [] := by simpa [foreignWrite, hi] using hf
      subst this
      obtain ⟨e, he'⟩ := osWrite_empty (f := s.file) (x := y)
      simp only [he']
      exact ⟨x, by simp [List.getElem?_set_ne hi, hx], he⟩
  · obtain ⟨y, hy, rfl, rfl⟩ := hs
    have := ha y (mem_handles hy)
    simp only [osWriteAt, this]
    exact ⟨x, hx, he⟩
  · obtain ⟨y, hy, rfl, rfl⟩ := hs
    exact ⟨x, hx, he⟩
  · rename_i i len
    obtain ⟨y, hy, rfl, rfl⟩ := hs
    by_cases hi : i = h
    · subst hi
      rw [hx] at hy; cases hy
      exact ⟨_, by simp [hlt]; rfl, by simpa using he⟩
    · exact ⟨x, by simp [List.getElem?_set_ne hi, hx], he⟩
  · rename_i i
    obtain ⟨y, hy, rfl, rfl⟩ := hs
    by_cases hi : i = h
    · subst hi
      rw [hx] at hy; cases hy
      exact ⟨_, by simp [hlt]; rfl, by simpa using he⟩
    · exact ⟨x, by simp [List.getElem?_set_ne hi, hx], he⟩

theorem run_counted {h : Nat} {s t : St} {cs : List Call} {o : List Out} (ha : AllAppend s) (hcr : ∀ a ∈ created cs, a = true)
    (hc : Counted h s) (hf : ∀ c ∈ cs, foreignWrite h c = false) (hr : run s cs = some (t, o)) : Counted h t := by
  induction cs generalizing s o with
  | nil => simp only [run, Option.some.injEq, Prod.mk.injEq] at hr; obtain ⟨rfl, rfl⟩ := hr; exact hc
  | cons c cs ih =>
    obtain ⟨s', o1, o2, h1, h2, rfl⟩ := run_cons hr
    have e : created (c :: cs) = created [c] ++ created cs := by rw [← created_append]; rfl
    rw [e] at hcr
    exact ih (step_allAppend ha (fun a h => hcr a (by simp [h])) h1) (fun a h => hcr a (by simp [h]))
      (step_counted ha hc (hf c (by simp)) h1) (fun c h => hf c (by simp [h])) h2

/-- All handles are open. -/
def AllLive (s : St) : Prop := ∀ x ∈ s.handles, x.live = true

theorem mem_set {l : List Handle} {h : Nat} {x y : Handle} (hy : y ∈ l.set h x) : y = x ∨ y ∈ l := by
  rcases List.mem_or_eq_of_mem_set hy with h | h
  · exact Or.inr h
  · exact Or.inl h

theorem step_allLive {s t : St} {c : Call} {o : Out} (hl : AllLive s) (hn : notClose c = true) (hs : step s c = some (t, o)) :
    AllLive t := by
  cases c <;> simp only [step, Option.bind_eq_bind, Option.bind_eq_some_iff, Option.pure_def, Option.some.injEq, Prod.mk.injEq] at hs
  · obtain ⟨rfl, _⟩ := hs
    intro x hx; rcases List.mem_append.mp hx with h | h
    · exact hl x h
    · simp only [List.mem_singleton] at h; subst h; rfl
  · obtain ⟨rfl, _⟩ := hs
    intro x hx; rcases List.mem_append.mp hx with h | h
    · exact hl x h
    · simp only [List.mem_singleton] at h; subst h; rfl
  · obtain ⟨y, hy, rfl, rfl⟩ := hs
    intro x hx; rcases mem_set hx with rfl | h
    · exact hl y (mem_handles hy)
    · exact hl x h
  · obtain ⟨y, hy, rfl, rfl⟩ := hs
    intro x hx; rcases mem_set hx with rfl | h
    · exact hl y (mem_handles hy)
    · exact hl x h
  · obtain ⟨y, hy, rfl, rfl⟩ := hs; exact hl
  · obtain ⟨y, hy, rfl, rfl⟩ := hs; exact hl
  · obtain ⟨y, hy, rfl, rfl⟩ := hs
    intro x hx; rcases mem_set hx with rfl | h
    · exact hl y (mem_handles hy)
    · exact hl x h
  · cases hn

/-- What calls add to the file and to the count of the handle `h`. -/
theorem step_sizes {h : Nat} {s t : St} {c : Call} {o : Out} {x : Handle} (ha : AllAppend s) (hl : AllLive s)
    (hs : step s c = some (t, o)) (hx : s.handles[h]? = some x) :
    t.file.length = s.file.length + written (fun _ => true) [c] ∧
      ∃ y, t.handles[h]? = some y ∧ y.offset = x.offset + written (fun i => i == h) [c] := by
  have hlt : h < s.handles.length := (List.getElem?_eq_some_iff.mp hx).1
  cases c <;> simp only [step, Option.bind_eq_bind, Option.bind_eq_some_iff, Option.pure_def, Option.some.injEq, Prod.mk.injEq] at hs
  · obtain ⟨rfl, _⟩ := hs; exact ⟨by simp [written], x, by simp [List.getElem?_append_left hlt, hx], by simp [written]⟩
  · obtain ⟨rfl, _⟩ := hs; exact ⟨by simp [written], x, by simp [List.getElem?_append_left hlt, hx], by simp [written]⟩
  · rename_i i bs
    obtain ⟨y, hy, rfl, rfl⟩ := hs
    obtain ⟨p, e, _⟩ := osWrite_append (f := s.file) (d := bs) (ha y (mem_handles hy)) (hl y (mem_handles hy))
    simp only [e]
    refine ⟨by simp [written], ?_⟩
    by_cases hi : i = h
    · subst hi
      rw [hx] at hy; cases hy
      refine ⟨_, by simp [hlt]; rfl, ?_⟩
      cases bs <;> simp [written]
    · exact ⟨x, by simp [List.getElem?_set_ne hi, hx], by simp [written, hi]⟩
  · rename_i i bs
    obtain ⟨y, hy, rfl, rfl⟩ := hs
    obtain ⟨p, e, _⟩ := osWrite_append (f := s.file) (d := bs) (ha y (mem_handles hy)) (hl y (mem_handles hy))
    simp only [e]
    refine ⟨by simp [written], ?_⟩
    by_cases hi : i = h
    · subst hi
      rw [hx] at hy; cases hy
      exact ⟨_, by simp [hlt]; rfl, by simp [written]⟩
    · exact ⟨x, by simp [List.getElem?_set_ne hi, hx], by simp [written, hi]⟩
  · obtain ⟨y, hy, rfl, rfl⟩ := hs
    have := ha y (mem_handles hy)
    simp only [osWriteAt, this]
    exact ⟨by simp [written], x, hx, by simp [written]⟩
  · obtain ⟨y, hy, rfl, rfl⟩ := hs
    exact ⟨by simp [written], x, hx, by simp [written]⟩
  · rename_i i len
    obtain ⟨y, hy, rfl, rfl⟩ := hs
    refine ⟨by simp [written], ?_⟩
    by_cases hi : i = h
    · subst hi
      rw [hx] at hy; cases hy
      exact ⟨_, by simp [hlt]; rfl, by simp [written]⟩
    · exact ⟨x, by simp [List.getElem?_set_ne hi, hx], by simp [written]⟩
  · rename_i i
    obtain ⟨y, hy, rfl, rfl⟩ := hs
    refine ⟨by simp [written], ?_⟩
    by_cases hi : i = h
    · subst hi
      rw [hx] at hy; cases hy
      exact ⟨_, by simp [hlt]; rfl, by simp [written]⟩
    · exact ⟨x, by simp [List.getElem?_set_ne hi, hx], by simp [written]⟩

theorem written_cons (p : Nat → Bool) (c : Call) (cs : List Call) : written p (c :: cs) = written p [c] + written p cs := by
  cases c <;> simp [written]

theorem run_sizes {h : Nat} {s t : St} {cs : List Call} {o : List Out} {x : Handle} (ha : AllAppend s) (hl : AllLive s)
    (hcr : ∀ a ∈ created cs, a = true) (hn : ∀ c ∈ cs, notClose c = true) (hr : run s cs = some (t, o)) (hx : s.handles[h]? = some x) :
    AllAppend t ∧ AllLive t ∧ t.file.length = s.file.length + written (fun _ => true) cs ∧
      ∃ y, t.handles[h]? = some y ∧ y.offset = x.offset + written (fun i => i == h) cs := by
  induction cs generalizing s o x with
  | nil =>
    simp only [run, Option.some.injEq, Prod.mk.injEq] at hr; obtain ⟨rfl, rfl⟩ := hr
    exact ⟨ha, hl, by simp [written], x, hx, by simp [written]⟩
  | cons c cs ih =>
    obtain ⟨s', o1, o2, h1, h2, rfl⟩ := run_cons hr
    have e : created (c :: cs) = created [c] ++ created cs := by rw [← created_append]; rfl
    rw [e] at hcr
    obtain ⟨e1, y, hy, e2⟩ := step_sizes ha hl h1 hx
    obtain ⟨a, b, e3, z, hz, e4⟩ := ih (step_allAppend ha (fun a h => hcr a (by simp [h])) h1) (step_allLive hl (hn c (by simp)) h1)
      (fun a h => hcr a (by simp [h])) (fun c h => hn c (by simp [h])) h2 hy
    refine ⟨a, b, ?_, z, hz, ?_⟩
    · rw [written_cons]; omega
    · rw [written_cons]; omega

theorem run_allLive {s t : St} {cs : List Call} {o : List Out} (hl : AllLive s) (hn : ∀ c ∈ cs, notClose c = true)
    (hr : run s cs = some (t, o)) : AllLive t :=
  run_inv (I := AllLive) (P := fun c => notClose c = true) (fun _ _ _ _ a b c => step_allLive a b c) hr hl hn

/-- One handle, at the end of the file: position and count. -/
def AtEnd (s : St) : Prop := ∃ x, s.handles = [x] ∧ x.pos = s.file.length ∧ x.offset = s.file.length

/-- A call on the first handle that is not a `WriteAt` reaching past the end of the file. -/
def Inside (s : St) (c : Call) : Prop :=
  target c = some 0 ∧ ∀ h bs off, c = .writeAt h bs off → off.toNat + bs.length ≤ s.file.length

theorem osRead_end {f : List UInt8} {x : Handle} {len : Nat} (hp : x.pos = f.length) :
    ∃ e, osRead f x len = ([], x.pos, e) := by
  cases h : x.live <;> simp [osRead, h, hp]

theorem osWriteAt_length {f : List UInt8} {x : Handle} {d : List UInt8} {off : Int} (h : off.toNat + d.length ≤ f.length) :
    (osWriteAt f x d off).1.length = f.length := by
  unfold osWriteAt
  repeat' split
  all_goals first | rfl | (rw [put_length]; omega)

theorem step_atEnd {s t : St} {c : Call} {o : Out} (h : AtEnd s) (hi : Inside s c) (hs : step s c = some (t, o)) : AtEnd t := by
  obtain ⟨x, hh, hp, ho⟩ := h
  obtain ⟨ht, hin⟩ := hi
  cases c <;> simp only [target, Option.some.injEq, reduceCtorEq] at ht <;> subst ht <;>
    simp only [step, hh, List.getElem?_cons_zero, Option.bind_eq_bind, Option.bind_some, Option.pure_def, Option.some.injEq,
      Prod.mk.injEq, List.set_cons_zero] at hs <;> obtain ⟨rfl, rfl⟩ := hs
  · rename_i bs
    cases hl : x.live
    · simp only [osWrite_closed hl]
      exact ⟨_, rfl, hp, by simpa using ho⟩
    · simp only [osWrite_end hl hp]
      refine ⟨_, rfl, by simp, ?_⟩
      cases bs <;> simp [ho]
  · rename_i bs
    cases hl : x.live
    · simp only [osWrite_closed hl]
      exact ⟨_, rfl, hp, by simpa using ho⟩
    · simp only [osWrite_end hl hp]
      exact ⟨_, rfl, by simp, by simp [ho]⟩
  · rename_i bs off
    have := osWriteAt_length (x := x) (hin _ _ _ rfl)
    exact ⟨x, rfl, by simp only [this, hp], by simp only [this, ho]⟩
  · exact ⟨x, hh, hp, ho⟩
  · rename_i len
    obtain ⟨e, he⟩ := osRead_end (x := x) (len := len) hp
    simp only [he]
    exact ⟨_, rfl, hp, ho⟩
  · exact ⟨_, rfl, hp, ho⟩

end Gofer.FastFile
