import Verif.Model.SyncMap
import Verif.Proof.AMap
import Verif.Proof.LinStamp
/-! # Traces of a `sync.Map` with the moments at which calls take effect -/
namespace Gofer.SyncMap
open Gofer.Spec.Map (Op Res)
open Gofer.Spec.SyncMap (Call Out unfold)
open Gofer.Spec.Linear (Ev Linearizable)
open Gofer.LinStamp

variable {K V : Type} [DecidableEq K] [GoValue V]

/-- A call, a change of the map (call, key, new value, old value), a return. -/
inductive TE (K V : Type) where
  | inv (i : Nat) (c : Call K V)
  | lin (i : Nat) (k : K) (n o : Option (Option V))
  | res (i : Nat) (r : Out K V)

def upd (v : K → Option (Option V)) (k : K) (n : Option (Option V)) : K → Option (Option V) := fun x => if x = k then n else v x

def tstep (v : K → Option (Option V)) : TE K V → K → Option (Option V)
  | .lin _ k n _ => upd v k n
  | _ => v

/-- The map after a trace. -/
def tval (T : List (TE K V)) : K → Option (Option V) := T.foldl tstep fun _ => none

theorem tval_snoc (T : List (TE K V)) (x : TE K V) : tval (T ++ [x]) = tstep (tval T) x := by simp [tval]

def Nolin (T : List (TE K V)) (i : Nat) : Prop := ∀ k n o, TE.lin i k n o ∉ T
def Nores (T : List (TE K V)) (i : Nat) : Prop := ∀ r, TE.res i r ∉ T

/-- At some moment since call `i` began, key `k` had `o`. -/
def Seen (T : List (TE K V)) (i : Nat) (k : K) (o : Option (Option V)) : Prop := ∃ A B, T = A ++ B ∧ (∃ c, TE.inv i c ∈ A) ∧ tval A k = o

theorem Seen.mono {T : List (TE K V)} {i : Nat} {k : K} {o : Option (Option V)} (h : Seen T i k o) (E : List (TE K V)) : Seen (T ++ E) i k o := by
  obtain ⟨A, B, h, a, b⟩ := h
  exact ⟨A, B ++ E, by rw [h, List.append_assoc], a, b⟩

theorem Seen.now {T : List (TE K V)} {i : Nat} {c : Call K V} (h : TE.inv i c ∈ T) (k : K) : Seen T i k (tval T k) := ⟨T, [], by simp, ⟨c, h⟩, rfl⟩

/-- What call `i` may return. -/
def Just (T : List (TE K V)) (i : Nat) : Prim K (Option V) → Raw K (Option V) → Prop
  | .load k, .prev o => Seen T i k o
  | .swap k w, .prev o => TE.lin i k (some w) o ∈ T
  | .del k, .prev o => TE.lin i k none o ∈ T ∨ (o = none ∧ Nolin T i ∧ Seen T i k none)
  | .range, .seq l all => (l.map Prod.fst).Nodup ∧ (∀ p ∈ l, Seen T i p.1 (some p.2)) ∧ (all = true → ∀ k, k ∉ l.map Prod.fst → Seen T i k none)
  | _, _ => False

def Cond (A : List (TE K V)) : TE K V → Prop
  | .inv i _ => ∀ c, TE.inv i c ∉ A
  | .lin i k n o => Nolin A i ∧ Nores A i ∧ o = tval A k ∧ ∃ c, TE.inv i c ∈ A ∧ ((∃ w, prim c = .swap k w ∧ n = some w) ∨ (prim c = .del k ∧ n = none))
  | .res i r => Nores A i ∧ ∃ c raw, TE.inv i c ∈ A ∧ r = answer c raw ∧ Just A i (prim c) raw

inductive TGood : List (TE K V) → Prop
  | nil : TGood []
  | snoc {A : List (TE K V)} {x : TE K V} : TGood A → Cond A x → TGood (A ++ [x])

/-- What is seen of a trace. -/
def vis : TE K V → Option (Ev (Call K V) (Out K V))
  | .inv i c => some (.inv i c)
  | .lin _ _ _ _ => none
  | .res i r => some (.res i r)

/-- What is seen of it with `Range` replaced. -/
def ufold (pick : Nat → List K) (x : TE K V) : List (Ev (Op K V) (Res V)) := (vis x).elim [] (unfold GoValue.zero pick)

theorem flat_vis (pick : Nat → List K) (T : List (TE K V)) : (T.filterMap vis).flatMap (unfold GoValue.zero pick) = T.flatMap (ufold pick) := by
  induction T with
  | nil => rfl
  | cons x T ih =>
    rw [List.flatMap_cons, ← ih]
    cases x <;> simp [vis, ufold, List.filterMap_cons]

abbrev sstep : Spec.Map.St K V → Op K V → Spec.Map.St K V × Res V := Spec.Map.step GoValue.zero GoValue.isNil

theorem runs_eq (s : Spec.Map.St K V) (os : List (Op K V)) : runs sstep s os = Spec.Map.run GoValue.zero GoValue.isNil s os := by
  induction os generalizing s with
  | nil => rfl
  | cons o os ih => simp [runs, Spec.Map.run, ih]

/-- The value of the specification for a value in the `sync.Map`. -/
def low (o : Option (Option V)) : Option V := o.map fun w => w.getD GoValue.zero

def stAt (T : List (TE K V)) (p : Nat) : Spec.Map.St K V := fun k => low (tval (T.take p) k)

theorem toAny_getD (v : V) : (toAny v).getD GoValue.zero = v := by
  unfold toAny
  split
  · rename_i h; exact (GoValue.nil_zero v h).symm
  · rfl

omit [DecidableEq K] in
theorem prim_swap {c : Call K V} {k : K} {w : Option V} (h : prim c = .swap k w) : ∃ v, c = .base (.put k v) ∧ w = toAny v := by
  match c, h with
  | .base (.put _ v), h => cases h; exact ⟨v, rfl, rfl⟩

omit [DecidableEq K] in
theorem prim_del {c : Call K V} {k : K} (h : prim c = .del k) : c = .base (.del k) := by
  match c, h with
  | .base (.del _), h => cases h; rfl

theorem vals {T : List (TE K V)} (h : TGood T) : ∀ k w, tval T k = some w → ∃ v, w = toAny v := by
  induction h with
  | nil => intro k w h; cases h
  | @snoc A x _ hx ih =>
    intro k w h
    rw [tval_snoc] at h
    cases x with
    | inv _ _ => exact ih k w h
    | res _ _ => exact ih k w h
    | lin i k' n o =>
      simp only [tstep, upd] at h
      split at h
      · obtain ⟨_, _, _, c, _, ⟨w', hc, hn⟩ | ⟨_, hn⟩⟩ := hx
        · rw [hn] at h; cases h
          obtain ⟨v, _, hv⟩ := prim_swap hc
          exact ⟨v, hv⟩
        · rw [hn] at h; cases h
      · exact ih k w h

theorem vals_take {T : List (TE K V)} (h : TGood T) (p : Nat) : TGood (T.take p) := by
  induction h with
  | nil => simpa using TGood.nil
  | @snoc A x hA hx ih =>
    by_cases hp : p ≤ A.length
    · rw [List.take_append_of_le_length hp]; exact ih
    · rw [List.take_of_length_le (by simp; omega)]; exact .snoc hA hx

theorem inv_unique {T : List (TE K V)} (h : TGood T) : ∀ (a b i : Nat) (c c' : Call K V), T[a]? = some (.inv i c) → T[b]? = some (.inv i c') → a = b := by
  induction h with
  | nil => intro a b i c c' h; simp at h
  | @snoc A x _ hx ih =>
    intro a b i c c' ha hb
    have key : ∀ {a b : Nat} {c c' : Call K V}, (A ++ [x])[a]? = some (.inv i c) → (A ++ [x])[b]? = some (.inv i c') → A.length ≤ b → a = b := by
      intro a b c c' ha hb hl
      rw [List.getElem?_append_right hl] at hb
      have : b - A.length = 0 := by
        have := (List.getElem?_eq_some_iff.1 hb).1
        simpa using this
      rw [this] at hb
      simp at hb
      subst hb
      by_cases h : a < A.length
      · rw [List.getElem?_append_left h] at ha
        exact absurd (List.mem_of_getElem? ha) (hx c)
      · have := (List.getElem?_eq_some_iff.1 ha).1
        simp at this
        omega
    by_cases hA : A.length ≤ a
    · exact (key hb ha hA).symm
    · by_cases hB : A.length ≤ b
      · exact key ha hb hB
      · rw [List.getElem?_append_left (by omega)] at ha hb
        exact ih a b i c c' ha hb

theorem inv_same {T : List (TE K V)} (h : TGood T) {i : Nat} {c c' : Call K V} (h1 : TE.inv i c ∈ T) (h2 : TE.inv i c' ∈ T) : c = c' := by
  obtain ⟨a, ha⟩ := List.getElem?_of_mem h1
  obtain ⟨b, hb⟩ := List.getElem?_of_mem h2
  have := inv_unique h a b i c c' ha hb
  subst this
  rw [ha] at hb
  cases hb
  rfl

theorem lin_inv {T : List (TE K V)} (h : TGood T) {i : Nat} {k : K} {n o : Option (Option V)} (h1 : TE.lin i k n o ∈ T) :
    ∃ c, TE.inv i c ∈ T ∧ ((∃ w, prim c = .swap k w ∧ n = some w) ∨ (prim c = .del k ∧ n = none)) := by
  induction h with
  | nil => simp at h1
  | @snoc A x _ hx ih =>
    rcases List.mem_append.1 h1 with h1 | h1
    · obtain ⟨c, hc, h⟩ := ih h1
      exact ⟨c, List.mem_append_left _ hc, h⟩
    · simp only [List.mem_singleton] at h1
      subst h1
      obtain ⟨_, _, _, c, hc, h⟩ := hx
      exact ⟨c, List.mem_append_left _ hc, h⟩

/-- Answers and results of the specification. -/
theorem ans_put {o : Option (Option V)} (ho : ∀ w, o = some w → ∃ v, w = toAny v) (k : K) (v : V) (s : Spec.Map.St K V) (hs : s k = low o) :
    answer (.base (.put k v)) (.prev o) = .base (sstep s (.put k v)).2 := by
  simp only [sstep, Spec.Map.step, hs]
  match o, ho with
  | none, _ => rfl
  | some w, ho =>
    obtain ⟨u, rfl⟩ := ho w rfl
    simp only [low, Option.map_some, Option.getD_some, toAny_getD]
    unfold toAny
    by_cases h : GoValue.isNil u = true
    · simp only [h, if_true, answer, Bool.not_true]
      rw [GoValue.nil_zero u h]
    · simp only [h, if_false, answer]
      simp

omit [GoValue V] in
theorem del_none [GoValue V] (s : Spec.Map.St K V) (k : K) (h : s k = none) : sstep s (.del k) = (s, .ok false) := by
  simp only [sstep, Spec.Map.step, h]
  congr 1
  funext x
  split
  · rename_i e; rw [e, h]
  · rfl

structure LInv (pick : Nat → List K) (T : List (TE K V)) (L : List (El (Op K V) (Res V))) : Prop where
  ok : LOk sstep (fun _ => none) L (stAt T) T.length
  own : ∀ x ∈ L, ((Nat.unpair x.num).2 = 0 ∧ ∃ k n o, TE.lin (Nat.unpair x.num).1 k n o ∈ T) ∨ ∃ r, TE.res (Nat.unpair x.num).1 r ∈ T
  inv : ∀ x ∈ L, ∃ b < x.stamp, ∃ u, T[b]? = some u ∧ Ev.inv x.num x.op ∈ ufold pick u
  res : ∀ (a : Nat) (u : TE K V), T[a]? = some u → ∀ i r, Ev.res i r ∈ ufold pick u → ∃ q op, (q, i, op, r) ∈ L ∧ q ≤ a
  lin : ∀ i k n o c, TE.lin i k n o ∈ T → TE.inv i c ∈ T → ∃ q op r, (q, Nat.pair i 0, op, r) ∈ L ∧ answer c (.prev o) = .base r

theorem stAt_snoc (A : List (TE K V)) (x : TE K V) (p : Nat) (h : p ≤ A.length) : stAt (A ++ [x]) p = stAt A p := by
  unfold stAt; rw [List.take_append_of_le_length h]

theorem stAt_last (A : List (TE K V)) : stAt A A.length = fun k => low (tval A k) := by
  unfold stAt; rw [List.take_length]

theorem getq_snoc {A : List (TE K V)} {x u : TE K V} {a : Nat} (h : (A ++ [x])[a]? = some u) : A[a]? = some u ∨ (a = A.length ∧ u = x) := by
  by_cases ha : a < A.length
  · rw [List.getElem?_append_left ha] at h; exact .inl h
  · rw [List.getElem?_append_right (by omega)] at h
    have : a - A.length = 0 := by
      have := (List.getElem?_eq_some_iff.1 h).1
      simpa using this
    rw [this] at h
    simp at h
    exact .inr ⟨by omega, h.symm⟩

theorem getq_left {A : List (TE K V)} {u : TE K V} {b : Nat} (x : TE K V) (h : A[b]? = some u) : (A ++ [x])[b]? = some u := by
  rw [List.getElem?_append_left (List.getElem?_eq_some_iff.1 h).1]; exact h

/-- An event at which nothing is put into the order. -/
theorem LInv.skip {pick : Nat → List K} {A : List (TE K V)} {L : List (El (Op K V) (Res V))} (h : LInv pick A L) (x : TE K V) (hx : tstep (tval A) x = tval A)
    (hr : ∀ i r, Ev.res i r ∈ ufold pick x → ∃ q op, (q, i, op, r) ∈ L ∧ q ≤ A.length)
    (hl : ∀ i k n o c, TE.lin i k n o ∈ A ++ [x] → TE.inv i c ∈ A ++ [x] → TE.lin i k n o ∈ A ∧ TE.inv i c ∈ A) : LInv pick (A ++ [x]) L := by
  refine ⟨?_, ?_, ?_, ?_, ?_⟩
  · rw [List.length_append]
    refine skip_ok _ h.ok (fun p hp => stAt_snoc A x p hp) ?_
    have : (A ++ [x]).length = A.length + 1 := by simp
    show stAt (A ++ [x]) (A.length + 1) = _
    rw [← this, stAt_last, stAt_last, tval_snoc, hx]
  · intro y hy
    rcases h.own y hy with ⟨h1, k, n, o, h2⟩ | ⟨r, h2⟩
    · exact .inl ⟨h1, k, n, o, List.mem_append_left _ h2⟩
    · exact .inr ⟨r, List.mem_append_left _ h2⟩
  · intro y hy
    obtain ⟨b, hb, u, hu, h2⟩ := h.inv y hy
    exact ⟨b, hb, u, getq_left x hu, h2⟩
  · intro a u ha i r hi
    rcases getq_snoc ha with ha | ⟨rfl, rfl⟩
    · exact h.res a u ha i r hi
    · exact hr i r hi
  · intro i k n o c h1 h2
    obtain ⟨h1, h2⟩ := hl i k n o c h1 h2
    exact h.lin i k n o c h1 h2

/-- A call that changes nothing is put into the order. This keeps all but the account of who is in the order. -/
theorem LInv.put {pick : Nat → List K} {A : List (TE K V)} {L : List (El (Op K V) (Res V))} (hok : LOk sstep (fun _ => none) L (stAt A) A.length)
    (hinv : ∀ x ∈ L, ∃ b < x.stamp, ∃ u, A[b]? = some u ∧ Ev.inv x.num x.op ∈ ufold pick u) {i : Nat} {op : Op K V} {B C : List (TE K V)} (hA : A = B ++ C) {u : TE K V} (hu : u ∈ B)
    (hi : Ev.inv i op ∈ ufold pick u) {r : Res V} (hr : sstep (fun k => low (tval B k)) op = (fun k => low (tval B k), r)) (hf : i ∉ L.map El.num) :
    ∃ L', LOk sstep (fun _ => none) L' (stAt A) A.length ∧ (∀ x ∈ L', ∃ b < x.stamp, ∃ u, A[b]? = some u ∧ Ev.inv x.num x.op ∈ ufold pick u) ∧
      (∀ y, y ∈ L' ↔ y = (B.length, i, op, r) ∨ y ∈ L) ∧ B.length ≤ A.length := by
  have hlen : B.length ≤ A.length := by rw [hA]; simp
  have hst : stAt A B.length = fun k => low (tval B k) := by
    unfold stAt; rw [hA, List.take_left]
  refine ⟨ins B.length (B.length, i, op, r) L, ins_ok _ hok hlen (by rw [hst]; exact hr) hf, ?_, fun y => mem_ins, hlen⟩
  intro x hx
  rcases mem_ins.1 hx with rfl | hx
  · obtain ⟨b, hb⟩ := List.getElem?_of_mem hu
    have hlt := (List.getElem?_eq_some_iff.1 hb).1
    exact ⟨b, hlt, u, by rw [hA, List.getElem?_append_left hlt]; exact hb, hi⟩
  · exact hinv x hx

omit [DecidableEq K] in
theorem prim_load {c : Call K V} {k : K} (h : prim c = .load k) : c = .base (.get k) ∨ c = .base (.has k) := by
  match c, h with
  | .base (.get _), h => cases h; exact .inl rfl
  | .base (.has _), h => cases h; exact .inr rfl

omit [DecidableEq K] in
theorem prim_range {c : Call K V} (h : prim c = .range) : c = .range := by
  match c, h with
  | .range, _ => rfl

/-- A call on one key returns that was not put into the order before. -/
theorem LInv.single {pick : Nat → List K} {A : List (TE K V)} {L : List (El (Op K V) (Res V))} (h : LInv pick A L) {i : Nat} {op : Op K V} {r : Res V} (hn : Nores A i) (hl : Nolin A i)
    {B C : List (TE K V)} (hA : A = B ++ C) (hi : TE.inv i (.base op) ∈ B) (hr : sstep (fun k => low (tval B k)) op = (fun k => low (tval B k), r)) :
    ∃ L', LInv pick (A ++ [TE.res i (.base r)]) L' := by
  obtain ⟨L', h1, h2, h3, h4⟩ := LInv.put h.ok h.inv (i := Nat.pair i 0) (op := op) hA hi (by simp [ufold, vis, unfold]) hr (by
    intro hc
    obtain ⟨y, hy, e⟩ := List.mem_map.1 hc
    rcases h.own y hy with ⟨_, k, n, o, hx⟩ | ⟨r, hx⟩
    · rw [e] at hx; simp only [Nat.unpair_pair] at hx; exact hl _ _ _ hx
    · rw [e] at hx; simp only [Nat.unpair_pair] at hx; exact hn _ hx)
  refine ⟨L', ?_, ?_, ?_, ?_, ?_⟩
  · rw [List.length_append]
    refine skip_ok _ h1 (fun p hp => stAt_snoc A _ p hp) ?_
    have : (A ++ [TE.res i (.base r)]).length = A.length + 1 := by simp
    show stAt (A ++ [TE.res i (.base r)]) (A.length + 1) = _
    rw [← this, stAt_last, stAt_last, tval_snoc]; rfl
  · intro y hy
    rcases (h3 y).1 hy with rfl | hy
    · exact .inr ⟨.base r, by simp [El.num]⟩
    · rcases h.own y hy with ⟨h1, k, n, o, h2⟩ | ⟨r, h2⟩
      · exact .inl ⟨h1, k, n, o, List.mem_append_left _ h2⟩
      · exact .inr ⟨r, List.mem_append_left _ h2⟩
  · intro y hy
    obtain ⟨b, hb, u, hu, hx⟩ := h2 y hy
    exact ⟨b, hb, u, getq_left _ hu, hx⟩
  · intro a u ha j r' hj
    rcases getq_snoc ha with ha | ⟨rfl, rfl⟩
    · obtain ⟨q, op', hq, hqa⟩ := h.res a u ha j r' hj
      exact ⟨q, op', (h3 _).2 (.inr hq), hqa⟩
    · simp [ufold, vis, unfold] at hj
      obtain ⟨rfl, rfl⟩ := hj
      exact ⟨_, op, (h3 _).2 (.inl rfl), h4⟩
  · intro j k n o c hj hc
    simp at hj hc
    obtain ⟨q, op', r', hq, e⟩ := h.lin j k n o c hj hc
    exact ⟨q, op', r', (h3 _).2 (.inr hq), e⟩

/-- What a `Get` in place of a `Range` answers. -/
def gets (l : List (K × V)) (all : Bool) (k : K) : Option (Res V) :=
  match (l.find? fun e => e.1 = k) with
  | some e => some (.val e.2 true)
  | none => if all then some (.val GoValue.zero false) else none

omit [GoValue V] in
theorem unfold_seq [GoValue V] (pick : Nat → List K) (i : Nat) (l : List (K × V)) (all : Bool) :
    unfold GoValue.zero pick (.res i (.seq l all)) = (pick i).zipIdx.filterMap fun p => (gets l all p.1).map fun r => Ev.res (Nat.pair i (p.2 + 1)) r := by
  simp only [unfold]
  congr 1
  funext p
  unfold gets
  cases l.find? fun e => e.1 = p.1 with
  | some e => rfl
  | none => cases all <;> rfl

/-- The `Get`s in place of a `Range`. -/
theorem LInv.many {pick : Nat → List K} {A : List (TE K V)} {i : Nat} (hin : TE.inv i (Call.range : Call K V) ∈ A) (hu : ∀ c, TE.inv i c ∈ A → c = Call.range) {l : List (K × V)} {all : Bool}
    (hs : ∀ k r, gets l all k = some r → ∃ B C, A = B ++ C ∧ (∃ c, TE.inv i c ∈ B) ∧ sstep (fun k => low (tval B k)) (.get k) = (fun k => low (tval B k), r))
    (ps : List (K × Nat)) (hps : (ps.map Prod.snd).Nodup) (hsub : ∀ p ∈ ps, p ∈ (pick i).zipIdx) :
    ∀ {L : List (El (Op K V) (Res V))}, LOk sstep (fun _ => none) L (stAt A) A.length → (∀ x ∈ L, ∃ b < x.stamp, ∃ u, A[b]? = some u ∧ Ev.inv x.num x.op ∈ ufold pick u) →
      (∀ p ∈ ps, Nat.pair i (p.2 + 1) ∉ L.map El.num) →
      ∃ L', LOk sstep (fun _ => none) L' (stAt A) A.length ∧ (∀ x ∈ L', ∃ b < x.stamp, ∃ u, A[b]? = some u ∧ Ev.inv x.num x.op ∈ ufold pick u) ∧ (∀ x ∈ L, x ∈ L') ∧
        (∀ x ∈ L', x ∈ L ∨ (Nat.unpair x.num).1 = i) ∧ (∀ p ∈ ps, ∀ r, gets l all p.1 = some r → ∃ q op, (q, Nat.pair i (p.2 + 1), op, r) ∈ L' ∧ q ≤ A.length) := by
  induction ps with
  | nil => intro L h1 h2 _; exact ⟨L, h1, h2, fun _ h => h, fun _ h => .inl h, by simp⟩
  | cons p ps ih =>
    intro L h1 h2 h3
    rw [List.map_cons, List.nodup_cons] at hps
    have ih := @ih hps.2 (fun q hq => hsub q (List.mem_cons_of_mem _ hq))
    match hg : gets l all p.1 with
    | none =>
      obtain ⟨L', a1, a2, a3, a4, a5⟩ := ih h1 h2 fun q hq => h3 q (List.mem_cons_of_mem _ hq)
      refine ⟨L', a1, a2, a3, a4, ?_⟩
      intro q hq r hr
      rcases List.mem_cons.1 hq with rfl | hq
      · rw [hg] at hr; cases hr
      · exact a5 q hq r hr
    | some r =>
      obtain ⟨B, C, hA, ⟨c, hc⟩, hr⟩ := hs _ _ hg
      have hcr := hu c (by rw [hA]; exact List.mem_append_left _ hc)
      subst hcr
      obtain ⟨L1, b1, b2, b3, b4⟩ := LInv.put h1 h2 (i := Nat.pair i (p.2 + 1)) (op := .get p.1) hA hc (by
        simp only [ufold, vis, unfold, Option.elim_some]
        exact List.mem_map.2 ⟨p, hsub p List.mem_cons_self, rfl⟩) hr (h3 p List.mem_cons_self)
      obtain ⟨L', a1, a2, a3, a4, a5⟩ := ih b1 b2 (by
        intro q hq hc
        obtain ⟨y, hy, e⟩ := List.mem_map.1 hc
        rcases (b3 y).1 hy with rfl | hy
        · simp only [El.num, Nat.pair_eq_pair] at e
          have : p.2 = q.2 := by omega
          exact hps.1 (by rw [this]; exact List.mem_map.2 ⟨q, hq, rfl⟩)
        · exact h3 q (List.mem_cons_of_mem _ hq) (List.mem_map.2 ⟨y, hy, e⟩))
      refine ⟨L', a1, a2, fun x hx => a3 x ((b3 x).2 (.inr hx)), ?_, ?_⟩
      · intro x hx
        rcases a4 x hx with hx | hx
        · rcases (b3 x).1 hx with rfl | hx
          · right; simp [El.num]
          · exact .inl hx
        · exact .inr hx
      · intro q hq r' hr'
        rcases List.mem_cons.1 hq with rfl | hq
        · rw [hg] at hr'; cases hr'
          exact ⟨B.length, .get q.1, a3 _ ((b3 _).2 (.inl rfl)), b4⟩
        · exact a5 q hq r' hr'

theorem zipIdx_snd_nodup {A : Type} (l : List A) : (l.zipIdx.map Prod.snd).Nodup := by
  rw [List.zipIdx_map_snd]
  exact List.nodup_range'

omit [GoValue V] in
theorem find_of_mem {l : List (K × V)} {k : K} : (∃ e ∈ l, (l.find? fun e => e.1 = k) = some e ∧ e.1 = k) ∨ ((l.find? fun e => e.1 = k) = none ∧ k ∉ l.map Prod.fst) := by
  match h : l.find? fun e => e.1 = k with
  | some e => exact .inl ⟨e, List.mem_of_find?_eq_some h, h, by simpa using List.find?_some h⟩
  | none =>
    refine .inr ⟨h, ?_⟩
    intro hk
    obtain ⟨e, he, rfl⟩ := List.mem_map.1 hk
    have := List.find?_eq_none.1 h e he
    simp at this

theorem step_get (B : List (TE K V)) (k : K) (o : Option (Option V)) (h : tval B k = o) :
    sstep (fun k => low (tval B k)) (.get k) = (fun k => low (tval B k), .val ((low o).getD GoValue.zero) o.isSome) := by
  simp only [sstep, Spec.Map.step, h]
  simp [low]

theorem build (pick : Nat → List K) {T : List (TE K V)} (h : TGood T) : ∃ L, LInv pick T L := by
  induction h with
  | nil =>
    refine ⟨[], ⟨by simp, by simp, ?_, rfl, by simp⟩, by simp, by simp, by simp, by simp⟩
    intro p _
    show (fun _ => none) = stAt [] p
    unfold stAt
    rw [List.take_nil]
    rfl
  | @snoc A x hA hx ih =>
    obtain ⟨L, h⟩ := ih
    cases x with
    | inv i c =>
      refine ⟨L, h.skip _ rfl ?_ ?_⟩
      · intro j r hj
        match c, hj with
        | .base op, hj => simp [ufold, vis, unfold] at hj
        | .range, hj => simp [ufold, vis, unfold] at hj
      · intro j k n o c' h1 h2
        simp only [List.mem_append, List.mem_singleton, reduceCtorEq, or_false] at h1
        refine ⟨h1, ?_⟩
        rcases List.mem_append.1 h2 with h2 | h2
        · exact h2
        · simp at h2
          obtain ⟨rfl, rfl⟩ := h2
          obtain ⟨c0, hc0, _⟩ := lin_inv hA h1
          exact absurd hc0 (hx c0)
    | lin i k n o =>
      obtain ⟨h1, h2, ho, c, hc, hcn⟩ := hx
      have hlast := stAt_last A
      have hfresh : Nat.pair i 0 ∉ L.map El.num := by
        intro hc
        obtain ⟨y, hy, e⟩ := List.mem_map.1 hc
        rcases h.own y hy with ⟨_, k, n, o, hx⟩ | ⟨r, hx⟩
        · rw [e] at hx; simp only [Nat.unpair_pair] at hx; exact h1 _ _ _ hx
        · rw [e] at hx; simp only [Nat.unpair_pair] at hx; exact h2 _ hx
      have key : ∃ op r, c = .base op ∧ sstep (stAt A A.length) op = (stAt (A ++ [TE.lin i k n o]) (A.length + 1), r) ∧ answer c (.prev o) = .base r := by
        have hnext : stAt (A ++ [TE.lin i k n o]) (A.length + 1) = fun x => low (upd (tval A) k n x) := by
          have : (A ++ [TE.lin i k n o]).length = A.length + 1 := by simp
          rw [← this, stAt_last, tval_snoc]; rfl
        rcases hcn with ⟨w, hp, hn⟩ | ⟨hp, hn⟩
        · obtain ⟨v, rfl, hw⟩ := prim_swap hp
          refine ⟨.put k v, _, rfl, ?_, ans_put (fun w hw => vals hA k w (ho ▸ hw)) k v (stAt A A.length) (by rw [hlast, ho])⟩
          rw [hnext]
          refine Prod.ext ?_ rfl
          simp only [sstep, Spec.Map.step]
          funext x
          unfold upd
          by_cases hxk : x = k
          · simp [hxk, hn, hw, low, toAny_getD]
          · simp [hxk, hlast]
        · have := prim_del hp
          subst this
          refine ⟨.del k, .ok o.isSome, rfl, ?_, rfl⟩
          rw [hnext]
          refine Prod.ext ?_ ?_
          · simp only [sstep, Spec.Map.step]
            funext x
            unfold upd
            by_cases hxk : x = k
            · simp [hxk, hn, low]
            · simp [hxk, hlast]
          · simp [sstep, Spec.Map.step, hlast, ho, low]
      obtain ⟨op, r, rfl, hstep, hans⟩ := key
      refine ⟨L ++ [(A.length + 1, Nat.pair i 0, op, r)], ?_, ?_, ?_, ?_, ?_⟩
      · rw [List.length_append]
        exact push_ok _ h.ok (fun p hp => stAt_snoc A _ p hp) hstep hfresh
      · intro y hy
        rcases List.mem_append.1 hy with hy | hy
        · rcases h.own y hy with ⟨h1, k, n, o, h2⟩ | ⟨r, h2⟩
          · exact .inl ⟨h1, k, n, o, List.mem_append_left _ h2⟩
          · exact .inr ⟨r, List.mem_append_left _ h2⟩
        · simp only [List.mem_singleton] at hy
          subst hy
          refine .inl ⟨by simp [El.num], k, n, o, ?_⟩
          simp [El.num]
      · intro y hy
        rcases List.mem_append.1 hy with hy | hy
        · obtain ⟨b, hb, u, hu, h2⟩ := h.inv y hy
          exact ⟨b, hb, u, getq_left _ hu, h2⟩
        · simp only [List.mem_singleton] at hy
          subst hy
          obtain ⟨b, hb⟩ := List.getElem?_of_mem hc
          have hlt := (List.getElem?_eq_some_iff.1 hb).1
          exact ⟨b, Nat.lt_succ_of_lt hlt, _, getq_left _ hb, by simp [ufold, vis, unfold]⟩
      · intro a u ha j r' hj
        rcases getq_snoc ha with ha | ⟨rfl, rfl⟩
        · obtain ⟨q, op', hq, hqa⟩ := h.res a u ha j r' hj
          exact ⟨q, op', List.mem_append_left _ hq, hqa⟩
        · simp [ufold, vis] at hj
      · intro j k' n' o' c' g1 g2
        simp only [List.mem_append, List.mem_singleton, reduceCtorEq, or_false] at g2
        rcases List.mem_append.1 g1 with g1 | g1
        · obtain ⟨q, op', r', hq, e⟩ := h.lin j k' n' o' c' g1 g2
          exact ⟨q, op', r', List.mem_append_left _ hq, e⟩
        · simp only [List.mem_singleton, TE.lin.injEq] at g1
          obtain ⟨rfl, rfl, rfl, rfl⟩ := g1
          have := inv_same hA g2 hc
          subst this
          exact ⟨A.length + 1, op, r, by simp, hans⟩
    | res i r =>
      obtain ⟨h1, c, raw, hc, rfl, hj⟩ := hx
      match hp : prim c, raw, hj with
      | .load k, .prev o, hj =>
        obtain ⟨B, C, hBC, ⟨c', hc'⟩, hv⟩ := hj
        have := inv_same hA hc (by rw [hBC]; exact List.mem_append_left _ hc')
        subst this
        have hnl : Nolin A i := by
          intro k' n o' hl
          obtain ⟨c2, hc2, hh⟩ := lin_inv hA hl
          have := inv_same hA hc hc2
          subst this
          rw [hp] at hh
          rcases hh with ⟨_, e, _⟩ | ⟨e, _⟩ <;> cases e
        rcases prim_load hp with rfl | rfl
        · have : answer (.base (.get k)) (.prev o) = .base (.val ((low o).getD (GoValue.zero : V)) o.isSome) := by
            match o with
            | none => rfl
            | some none => rfl
            | some (some v) => rfl
          rw [this]
          exact h.single h1 hnl hBC hc' (step_get B k o hv)
        · refine h.single h1 hnl hBC hc' ?_
          simp [sstep, Spec.Map.step, hv, low]
      | .swap k w, .prev o, hj =>
        refine ⟨L, h.skip _ rfl ?_ (by simp +contextual)⟩
        intro j r hr
        obtain ⟨q, op, r', hq, e⟩ := h.lin i k (some w) o c hj hc
        rw [e] at hr
        simp [ufold, vis, unfold] at hr
        obtain ⟨rfl, rfl⟩ := hr
        exact ⟨q, op, hq, h.ok.bound _ hq⟩
      | .del k, .prev o, .inl hj =>
        refine ⟨L, h.skip _ rfl ?_ (by simp +contextual)⟩
        intro j r hr
        obtain ⟨q, op, r', hq, e⟩ := h.lin i k none o c hj hc
        rw [e] at hr
        simp [ufold, vis, unfold] at hr
        obtain ⟨rfl, rfl⟩ := hr
        exact ⟨q, op, hq, h.ok.bound _ hq⟩
      | .del k, .prev o, .inr ⟨ho, hnl, B, C, hBC, ⟨c', hc'⟩, hv⟩ =>
        have := inv_same hA hc (by rw [hBC]; exact List.mem_append_left _ hc')
        subst this
        have := prim_del hp
        subst this
        subst ho
        exact h.single h1 hnl hBC hc' (del_none _ k (by simp [hv, low]))
      | .range, .seq l all, ⟨_, hs, ha⟩ =>
        have := prim_range hp
        subst this
        simp only [answer]
        generalize hl' : (l.map fun p => (p.1, p.2.getD (GoValue.zero : V))) = l'
        obtain ⟨L', a1, a2, a3, a4, a5⟩ := LInv.many (pick := pick) (i := i) (l := l') (all := all) hc (fun c' hc' => inv_same hA hc' hc) (by
          intro k r hr
          unfold gets at hr
          rcases find_of_mem (l := l') (k := k) with ⟨e, he, hf, hk⟩ | ⟨hf, hk⟩
          · rw [hf] at hr
            cases hr
            rw [← hl'] at he
            obtain ⟨p, hp, rfl⟩ := List.mem_map.1 he
            obtain ⟨B, C, hBC, hi, hv⟩ := hs p hp
            simp only at hk
            rw [← hk]
            refine ⟨B, C, hBC, hi, ?_⟩
            rw [step_get B p.1 _ hv]
            rfl
          · rw [hf] at hr
            simp only at hr
            split at hr
            · rename_i hall
              cases hr
              have hk' : k ∉ l.map Prod.fst := by
                rw [← hl'] at hk
                simpa using hk
              obtain ⟨B, C, hBC, hi, hv⟩ := ha hall k hk'
              exact ⟨B, C, hBC, hi, by rw [step_get B k _ hv]; rfl⟩
            · cases hr) (pick i).zipIdx (zipIdx_snd_nodup _) (fun _ h => h) h.ok h.inv (by
          intro p _ hc
          obtain ⟨y, hy, e⟩ := List.mem_map.1 hc
          rcases h.own y hy with ⟨h0, _⟩ | ⟨r, hx⟩
          · rw [e] at h0; simp at h0
          · rw [e] at hx; simp only [Nat.unpair_pair] at hx; exact h1 _ hx)
        refine ⟨L', ?_, ?_, ?_, ?_, ?_⟩
        · rw [List.length_append]
          refine skip_ok _ a1 (fun p hp => stAt_snoc A _ p hp) ?_
          have : (A ++ [TE.res i (.seq l' all)]).length = A.length + 1 := by simp
          show stAt (A ++ [TE.res i (.seq l' all)]) (A.length + 1) = _
          rw [← this, stAt_last, stAt_last, tval_snoc]; rfl
        · intro y hy
          rcases a4 y hy with hy | hy
          · rcases h.own y hy with ⟨h1, k, n, o, h2⟩ | ⟨r, h2⟩
            · exact .inl ⟨h1, k, n, o, List.mem_append_left _ h2⟩
            · exact .inr ⟨r, List.mem_append_left _ h2⟩
          · exact .inr ⟨.seq l' all, by rw [hy]; simp⟩
        · intro y hy
          obtain ⟨b, hb, u, hu, hx⟩ := a2 y hy
          exact ⟨b, hb, u, getq_left _ hu, hx⟩
        · intro a u ha j r' hj
          rcases getq_snoc ha with ha | ⟨rfl, rfl⟩
          · obtain ⟨q, op', hq, hqa⟩ := h.res a u ha j r' hj
            exact ⟨q, op', a3 _ hq, hqa⟩
          · simp only [ufold, vis, Option.elim_some] at hj
            rw [unfold_seq, List.mem_filterMap] at hj
            obtain ⟨p, hp, e⟩ := hj
            rw [Option.map_eq_some_iff] at e
            obtain ⟨r0, hr0, e⟩ := e
            cases e
            exact a5 p hp _ hr0
        · intro j k n o c hj hc
          simp at hj hc
          obtain ⟨q, op', r', hq, e⟩ := h.lin j k n o c hj hc
          exact ⟨q, op', r', a3 _ hq, e⟩

theorem lin_of_good (pick : Nat → List K) {T : List (TE K V)} (h : TGood T) :
    Linearizable (Spec.Map.run GoValue.zero GoValue.isNil fun _ => none) ((T.filterMap vis).flatMap (unfold GoValue.zero pick)) := by
  obtain ⟨L, hL⟩ := build pick h
  rw [flat_vis, ← funext (runs_eq (fun _ => none))]
  have invOf : ∀ {u : TE K V} {i : Nat} {op : Op K V}, Ev.inv i op ∈ ufold pick u → ∃ c, u = .inv (Nat.unpair i).1 c := by
    intro u i op hu
    match u, hu with
    | .inv j (.base op'), hu =>
      simp [ufold, vis, unfold] at hu
      exact ⟨.base op', by rw [hu.1]; simp⟩
    | .inv j .range, hu =>
      simp only [ufold, vis, unfold, Option.elim_some] at hu
      obtain ⟨p, _, e⟩ := List.mem_map.1 hu
      cases e
      exact ⟨.range, by simp⟩
    | .lin _ _ _ _, hu => simp [ufold, vis] at hu
    | .res _ (.base _), hu => simp [ufold, vis, unfold] at hu
    | .res j (.seq l all), hu =>
      simp only [ufold, vis, Option.elim_some] at hu
      rw [unfold_seq, List.mem_filterMap] at hu
      obtain ⟨p, hp, e⟩ := hu
      rw [Option.map_eq_some_iff] at e
      obtain ⟨_, _, e⟩ := e
      cases e
  refine linear_of _ hL.ok hL.inv hL.res ?_ ?_
  · intro a b u w ha hb i op op' hu hw
    obtain ⟨c, rfl⟩ := invOf hu
    obtain ⟨c', rfl⟩ := invOf hw
    exact inv_unique h a b _ c c' ha hb
  · intro a u _ i r j op hr hi
    obtain ⟨c, rfl⟩ := invOf hi
    match c, hr with
    | .base _, hr => simp [ufold, vis, unfold] at hr
    | .range, hr => simp [ufold, vis, unfold] at hr

end Gofer.SyncMap
