import Verif.Proof.SyncMapSh
/-! # Executions of `sync.Map` -/
namespace Gofer.SyncMap
open Gofer.Spec.Map (Op Res)
open Gofer.Spec.SyncMap (Call Out unfold)
open Gofer.Spec.Linear (Ev Linearizable)

variable {K V : Type} [DecidableEq K] [GoValue V]

/-- The entries still to be visited by `dirtyLocked`. -/
def exOf : Ph K (Option V) → List (K × Nat)
  | .exp l => l
  | _ => []

def todoG : G K V → List (K × Nat)
  | .run _ _ ph => exOf ph
  | .idle => []

def todoOf (s : St K V) : List (K × Nat) := s.mu.elim [] fun t => todoG (s.g t)

def LoadOk (s : St K V) (T : List (TE K V)) (i : Nat) (k : K) (e : Nat) : Prop :=
  e < s.fresh ∧ (cur s k = some e ∨ (cur s k ≠ some e ∧ Seen T i k none ∧ ∀ w, s.heap k e = .val w → Seen T i k (some w)))

def SwapOk (s : St K V) (k : K) (e : Nat) : Prop := e < s.fresh ∧ (s.read.load k = some e ∨ (cur s k ≠ some e ∧ s.heap k e = .expunged))

def DelOk (s : St K V) (T : List (TE K V)) (i : Nat) (k : K) (e : Nat) : Prop :=
  e < s.fresh ∧ (s.read.load k = some e ∨ (cur s k ≠ some e ∧ s.heap k e = .expunged ∧ Seen T i k none))

def Taken (s : St K V) (T : List (TE K V)) (i : Nat) (k : K) (e : Nat) : Prop :=
  e < s.fresh ∧ cur s k ≠ some e ∧ ∃ w, s.heap k e = .val w ∧ TE.lin i k none (some w) ∈ T

def IterOk (s : St K V) (T : List (TE K V)) (i : Nat) (todo : List (K × Nat)) (seen : List (K × Option V)) : Prop :=
  (todo.map Prod.fst ++ seen.map Prod.fst).Nodup ∧ (∀ p ∈ todo, DelOk s T i p.1 p.2) ∧ (∀ p ∈ seen, Seen T i p.1 (some p.2)) ∧
  ∀ k, k ∉ todo.map Prod.fst → k ∉ seen.map Prod.fst → Seen T i k none

/-- Calls that may change the map have not done it yet. -/
def NL (T : List (TE K V)) (i : Nat) : Prim K (Option V) → Prop
  | .swap _ _ => Nolin T i
  | .del _ => Nolin T i
  | _ => True

/-- The phases without mutex. -/
def PF (s : St K V) (T : List (TE K V)) (i : Nat) : Prim K (Option V) → Ph K (Option V) → Prop
  | p, .out r => Just T i p r
  | .load k, .fin e _ => LoadOk s T i k e
  | .swap k _, .fin e _ => Nolin T i ∧ SwapOk s k e
  | .del k, .fin e false => Nolin T i ∧ DelOk s T i k e
  | .del k, .fin e true => Taken s T i k e
  | .range, .iter todo seen => IterOk s T i todo seen
  | _, _ => False

def PI (s : St K V) (T : List (TE K V)) (t i : Nat) (p : Prim K (Option V)) : Ph K (Option V) → Prop
  | .start => NL T i p
  | .wait => NL T i p
  | .locked => s.mu = some t ∧ NL T i p
  | .unexp e => s.mu = some t ∧ NL T i p ∧ ∃ k w, p = .swap k w ∧ s.read.load k = some e
  | .swapL e => s.mu = some t ∧ NL T i p ∧ ∃ k w, p = .swap k w ∧ cur s k = some e ∧ s.heap k e ≠ .expunged
  | .exp _ => s.mu = some t ∧ NL T i p ∧ ∃ k w, p = .swap k w ∧ s.read.load k = none ∧ s.look k = none ∧ s.dirty ≠ none ∧ s.amended = false
  | .pub => s.mu = some t ∧ NL T i p ∧ ∃ k w, p = .swap k w ∧ s.read.load k = none ∧ s.look k = none ∧ s.dirty ≠ none
  | .rel n => s.mu = some t ∧ PF s T i p n
  | .fin e b => PF s T i p (.fin e b)
  | .iter a b => PF s T i p (.iter a b)
  | .out r => PF s T i p (.out r)

def taker : Ph K (Option V) → Option Nat
  | .fin e true => some e
  | .rel (.fin e true) => some e
  | _ => none

/-- Goroutine `t` has taken entry `e` of `k` out. -/
def Takes (s : St K V) (t : Nat) (k : K) (e : Nat) : Prop := ∃ i c ph, s.g t = .run i c ph ∧ prim c = .del k ∧ taker ph = some e

structure Inv (s : St K V) (T : List (TE K V)) : Prop where
  sh : SInv s (todoOf s) (tval T)
  good : TGood T
  run : ∀ t i c ph, s.g t = .run i c ph → TE.inv i c ∈ T ∧ Nores T i ∧ PI s T t i (prim c) ph
  inj : ∀ t t' i c ph c' ph', s.g t = .run i c ph → s.g t' = .run i c' ph' → t = t'
  tak : ∀ t t' k e, Takes s t k e → Takes s t' k e → t = t'
  nxt : ∀ i c, TE.inv i c ∈ T → i < s.next
  his : s.hist = T.filterMap vis

/-- Events of call `i` that change the map. -/
def Own (i : Nat) (E : List (TE K V)) : Prop := ∀ x ∈ E, ∃ k n o, x = .lin i k n o

def OwnL (i : Nat) (E : List (TE K V)) : Prop := ∀ j k n o, TE.lin j k n o ∈ E → j = i

omit [DecidableEq K] [GoValue V] in
theorem Own.l {i : Nat} {E : List (TE K V)} (h : Own i E) : OwnL i E := by
  intro j k n o hm
  obtain ⟨_, _, _, e⟩ := h _ hm
  cases e
  rfl

section
variable {s s1 : St K V} {T E : List (TE K V)} {hold : Bool} {own : Option (K × Nat)}

theorem LoadOk.tr (hs : SInv s (todoOf s) (tval T)) (tr : Tr s s1 (tval T) (tval (T ++ E)) hold own) {i : Nat} {c : Call K V} (hi : TE.inv i c ∈ T) {k : K} {e : Nat} (h : LoadOk s T i k e) :
    LoadOk s1 (T ++ E) i k e := by
  obtain ⟨hf, h | ⟨h1, h2, h3⟩⟩ := h
  · refine ⟨hf.trans_le tr.fr, ?_⟩
    rcases tr.C k e h with h' | ⟨a, b, c'⟩
    · exact .inl h'
    · have hn := Seen.now (List.mem_append_left E hi) k
      refine .inr ⟨a, by rw [b] at hn; exact hn, fun w hw => ?_⟩
      rcases c' w hw with h4 | h4
      · have := Seen.now hi k
        rw [h4] at this
        exact this.mono E
      · rw [h4] at hn; exact hn
  · obtain ⟨a1, _, a3, _⟩ := tr.X k e hf h1
    exact ⟨hf.trans_le tr.fr, .inr ⟨a1, h2.mono E, fun w hw => (h3 w (a3 w hw)).mono E⟩⟩

theorem SwapOk.tr (tr : Tr s s1 (tval T) (tval (T ++ E)) hold own) {k : K} {e : Nat} (h : SwapOk s k e) : SwapOk s1 k e := by
  obtain ⟨hf, h | ⟨h1, h2⟩⟩ := h
  · refine ⟨hf.trans_le tr.fr, ?_⟩
    rcases tr.R k e h with h' | ⟨a, b, _⟩
    · exact .inl h'
    · exact .inr ⟨a, b⟩
  · obtain ⟨a1, a2, _, _⟩ := tr.X k e hf h1
    exact ⟨hf.trans_le tr.fr, .inr ⟨a1, a2 h2⟩⟩

theorem DelOk.tr (tr : Tr s s1 (tval T) (tval (T ++ E)) hold own) {i : Nat} {c : Call K V} (hi : TE.inv i c ∈ T) {k : K} {e : Nat} (h : DelOk s T i k e) : DelOk s1 (T ++ E) i k e := by
  obtain ⟨hf, h | ⟨h1, h2, h3⟩⟩ := h
  · refine ⟨hf.trans_le tr.fr, ?_⟩
    rcases tr.R k e h with h' | ⟨a, b, c'⟩
    · exact .inl h'
    · have hn := Seen.now (List.mem_append_left E hi) k
      rw [c'] at hn
      exact .inr ⟨a, b, hn⟩
  · obtain ⟨a1, a2, _, _⟩ := tr.X k e hf h1
    exact ⟨hf.trans_le tr.fr, .inr ⟨a1, a2 h2, h3.mono E⟩⟩

theorem Nolin.app {i j : Nat} (h : Nolin T j) (hE : OwnL i E) (hij : j ≠ i) : Nolin (T ++ E) j := by
  intro k n o hm
  rcases List.mem_append.1 hm with hm | hm
  · exact h k n o hm
  · exact hij (hE _ _ _ _ hm)

theorem Nores.app {i j : Nat} (h : Nores T j) (hE : Own i E) : Nores (T ++ E) j := by
  intro r hm
  rcases List.mem_append.1 hm with hm | hm
  · exact h r hm
  · obtain ⟨_, _, _, e⟩ := hE _ hm
    cases e

theorem NL.app {i j : Nat} {p : Prim K (Option V)} (h : NL T j p) (hE : OwnL i E) (hij : j ≠ i) : NL (T ++ E) j p := by
  cases p with
  | load k => trivial
  | swap k w => exact Nolin.app h hE hij
  | del k => exact Nolin.app h hE hij
  | range => trivial

theorem Just.app {i j : Nat} {p : Prim K (Option V)} {r : Raw K (Option V)} (h : Just T j p r) (hE : OwnL i E) (hij : j ≠ i) : Just (T ++ E) j p r := by
  match p, r, h with
  | .load k, .prev o, h => exact Seen.mono h E
  | .swap k w, .prev o, h => exact List.mem_append_left E h
  | .del k, .prev o, .inl h => exact .inl (List.mem_append_left E h)
  | .del k, .prev o, .inr ⟨a, b, c⟩ => exact .inr ⟨a, b.app hE hij, c.mono E⟩
  | .range, .seq l all, ⟨a, b, c⟩ => exact ⟨a, fun p hp => (b p hp).mono E, fun ha k hk => (c ha k hk).mono E⟩

theorem PF.app (hs : SInv s (todoOf s) (tval T)) (tr : Tr s s1 (tval T) (tval (T ++ E)) hold own) {i j : Nat} (hE : OwnL i E) (hij : j ≠ i) {c : Call K V} (hi : TE.inv j c ∈ T)
    {p : Prim K (Option V)} {ph : Ph K (Option V)} (ho : ∀ k e, p = .del k → ph = .fin e true → own ≠ some (k, e)) (h : PF s T j p ph) : PF s1 (T ++ E) j p ph := by
  match p, ph, h, ho with
  | p, .out r, h, _ => exact Just.app h hE hij
  | .load k, .fin e _, h, _ => exact LoadOk.tr hs tr hi h
  | .swap k w, .fin e _, h, _ => exact ⟨h.1.app hE hij, SwapOk.tr tr h.2⟩
  | .del k, .fin e false, h, _ => exact ⟨h.1.app hE hij, DelOk.tr tr hi h.2⟩
  | .del k, .fin e true, ⟨hf, h1, w, h2, h3⟩, ho =>
    obtain ⟨a1, _, _, a4⟩ := tr.X k e hf h1
    exact ⟨hf.trans_le tr.fr, a1, w, by rw [a4 (ho k e rfl rfl)]; exact h2, List.mem_append_left E h3⟩
  | .range, .iter todo seen, ⟨a, b, c, d⟩, _ =>
    exact ⟨a, fun p hp => DelOk.tr tr hi (b p hp), fun p hp => (c p hp).mono E, fun k h1 h2 => (d k h1 h2).mono E⟩

theorem PI.app (hs : SInv s (todoOf s) (tval T)) (tr : Tr s s1 (tval T) (tval (T ++ E)) hold own) {t t0 i j : Nat} (hE : OwnL i E) (hij : j ≠ i) {c : Call K V} (hi : TE.inv j c ∈ T)
    (ht : t0 ≠ t) (hm : ∀ t0, t0 ≠ t → s.mu = some t0 → s1.mu = some t0) (hh : hold = true → s.mu = some t)
    {p : Prim K (Option V)} {ph : Ph K (Option V)} (ho : ∀ k e, p = .del k → taker ph = some e → own ≠ some (k, e)) (h : PI s T t0 j p ph) : PI s1 (T ++ E) t0 j p ph := by
  have hold_f : s.mu = some t0 → hold = false := by
    intro h0
    cases hold with
    | false => rfl
    | true => rw [hh rfl] at h0; cases h0; exact absurd rfl ht
  have hlook : s1.dirty = s.dirty → ∀ k, s1.look k = s.look k := fun h k => by simp [St.look, h]
  match ph, h, ho with
  | .start, h, _ => exact NL.app h hE hij
  | .wait, h, _ => exact NL.app h hE hij
  | .locked, ⟨h1, h2⟩, _ => exact ⟨hm t0 ht h1, h2.app hE hij⟩
  | .unexp e, ⟨h1, h2, k, w, h3, h4⟩, _ =>
    obtain ⟨a1, a2, a3, a4⟩ := tr.L (hold_f h1)
    exact ⟨hm t0 ht h1, h2.app hE hij, k, w, h3, by rw [a1]; exact h4⟩
  | .swapL e, ⟨h1, h2, k, w, h3, h4, h5⟩, _ =>
    obtain ⟨a1, a2, a3, a4⟩ := tr.L (hold_f h1)
    exact ⟨hm t0 ht h1, h2.app hE hij, k, w, h3, by rw [cur, a1, hlook a2]; exact h4, fun hc => h5 ((a4 k e).1 hc)⟩
  | .exp _, ⟨h1, h2, k, w, h3, h4, h5, h6, h7⟩, _ =>
    obtain ⟨a1, a2, a3, a4⟩ := tr.L (hold_f h1)
    exact ⟨hm t0 ht h1, h2.app hE hij, k, w, h3, by rw [a1]; exact h4, by rw [hlook a2]; exact h5, by rw [a2]; exact h6, by rw [a3]; exact h7⟩
  | .pub, ⟨h1, h2, k, w, h3, h4, h5, h6⟩, _ =>
    obtain ⟨a1, a2, a3, a4⟩ := tr.L (hold_f h1)
    exact ⟨hm t0 ht h1, h2.app hE hij, k, w, h3, by rw [a1]; exact h4, by rw [hlook a2]; exact h5, by rw [a2]; exact h6⟩
  | .rel n, ⟨h1, h2⟩, ho =>
    refine ⟨hm t0 ht h1, PF.app hs tr hE hij hi (fun k e h3 h4 => ho k e h3 (by rw [h4]; rfl)) h2⟩
  | .fin e b, h, ho => exact PF.app hs tr hE hij hi (fun k e' h3 h4 => ho k e' h3 (by rw [h4]; rfl)) h
  | .iter a b, h, _ => exact PF.app hs tr hE hij hi (fun k e' h3 h4 => by cases h4) h
  | .out r, h, _ => exact (Just.app (show Just T j p r from h) hE hij : Just (T ++ E) j p r)

theorem setG_self (s : St K V) (t : Nat) (x : G K V) : (setG s t x).g t = x := by simp [setG]
theorem setG_ne (s : St K V) {t t0 : Nat} (x : G K V) (h : t0 ≠ t) : (setG s t x).g t0 = s.g t0 := by simp [setG, h]

/-- A step of goroutine `t`. -/
theorem advance (h : Inv s T) {t i : Nat} {c : Call K V} {ph ph' : Ph K (Option V)} (hg : s.g t = .run i c ph) (e1 : s1.g = s.g) (e2 : s1.next = s.next) (e3 : s1.hist = s.hist)
    (hE : Own i E) (hgood : TGood (T ++ E)) {todo : List (K × Nat)} (hs1 : SInv s1 todo (tval (T ++ E))) (htd : todoOf (setG s1 t (.run i c ph')) = todo)
    (tr : Tr s s1 (tval T) (tval (T ++ E)) hold own) (hm : ∀ t0, t0 ≠ t → s.mu = some t0 → s1.mu = some t0) (hh : hold = true → s.mu = some t)
    (hown : ∀ k e, own = some (k, e) → Takes s t k e) (htak : ∀ k e, prim c = .del k → taker ph' = some e → Takes s t k e ∨ cur s k = some e)
    (hpi : PI s1 (T ++ E) t i (prim c) ph') : Inv (setG s1 t (.run i c ph')) (T ++ E) := by
  obtain ⟨hi, hn, _⟩ := h.run t i c ph hg
  have hgo : ∀ t0, t0 ≠ t → (setG s1 t (.run i c ph')).g t0 = s.g t0 := fun t0 h0 => by rw [setG_ne _ _ h0, e1]
  have hself := setG_self s1 t (.run i c ph')
  have htk : ∀ t0 k e, t0 ≠ t → Takes (setG s1 t (.run i c ph')) t0 k e → Takes s t0 k e := by
    rintro t0 k e h0 ⟨i0, c0, ph0, a, b⟩
    rw [hgo t0 h0] at a
    exact ⟨i0, c0, ph0, a, b⟩
  -- an entry taken out is not current
  have hncur : ∀ t0 k e, Takes s t0 k e → cur s k ≠ some e := by
    rintro t0 k e ⟨i0, c0, ph0, a, b, d⟩
    obtain ⟨_, _, hp⟩ := h.run t0 i0 c0 ph0 a
    rw [b] at hp
    match ph0, d, hp with
    | .fin _ true, rfl, hp => exact hp.2.1
    | .rel (.fin _ true), rfl, hp => exact hp.2.2.1
  have hself_tak : ∀ t0 k e, t0 ≠ t → Takes (setG s1 t (.run i c ph')) t k e → Takes (setG s1 t (.run i c ph')) t0 k e → False := by
    intro t0 k e h0 ⟨i1, c1, ph1, a, b, d⟩ h2
    rw [hself] at a
    cases a
    have h2 := htk t0 k e h0 h2
    rcases htak k e b d with h3 | h3
    · exact h0 (h.tak t0 t k e h2 h3)
    · exact hncur t0 k e h2 h3
  refine ⟨?_, hgood, ?_, ?_, ?_, ?_, ?_⟩
  · rw [htd]; exact hs1.of_eq rfl rfl rfl rfl rfl
  · intro t0 i0 c0 ph0 h0
    by_cases ht : t0 = t
    · subst ht
      rw [hself] at h0
      cases h0
      exact ⟨List.mem_append_left E hi, hn.app hE, hpi⟩
    · rw [hgo t0 ht] at h0
      obtain ⟨b1, b2, b3⟩ := h.run t0 i0 c0 ph0 h0
      have hij : i0 ≠ i := by
        rintro rfl
        exact ht (h.inj t0 t i0 c0 ph0 c ph h0 hg)
      refine ⟨List.mem_append_left E b1, b2.app hE, ?_⟩
      refine PI.app h.sh tr hE.l hij b1 ht hm hh ?_ b3
      intro k e h1 h2 h3
      exact ht (h.tak t0 t k e ⟨i0, c0, ph0, h0, h1, h2⟩ (hown k e h3))
  · intro t1 t2 j c1 ph1 c2 ph2 h1 h2
    by_cases ht1 : t1 = t
    · by_cases ht2 : t2 = t
      · rw [ht1, ht2]
      · subst ht1
        rw [hself] at h1
        cases h1
        rw [hgo t2 ht2] at h2
        exact absurd (h.inj t2 t1 i c2 ph2 c ph h2 hg) ht2
    · by_cases ht2 : t2 = t
      · subst ht2
        rw [hself] at h2
        cases h2
        rw [hgo t1 ht1] at h1
        exact absurd (h.inj t1 t2 i c1 ph1 c ph h1 hg) ht1
      · rw [hgo t1 ht1] at h1
        rw [hgo t2 ht2] at h2
        exact h.inj t1 t2 j c1 ph1 c2 ph2 h1 h2
  · intro t1 t2 k e h1 h2
    by_cases ht1 : t1 = t
    · by_cases ht2 : t2 = t
      · rw [ht1, ht2]
      · subst ht1
        exact (hself_tak t2 k e ht2 h1 h2).elim
    · by_cases ht2 : t2 = t
      · subst ht2
        exact (hself_tak t1 k e ht1 h2 h1).elim
      · exact h.tak t1 t2 k e (htk t1 k e ht1 h1) (htk t2 k e ht2 h2)
  · intro j c' hj
    show j < s1.next
    rw [e2]
    rcases List.mem_append.1 hj with hj | hj
    · exact h.nxt j c' hj
    · obtain ⟨_, _, _, e⟩ := hE _ hj
      cases e
  · show s1.hist = _
    rw [e3, h.his, List.filterMap_append]
    have : E.filterMap vis = [] := by
      rw [List.filterMap_eq_nil_iff]
      intro x hx
      obtain ⟨_, _, _, e⟩ := hE x hx
      rw [e]; rfl
    rw [this, List.append_nil]

theorem todo_same {t i : Nat} {c : Call K V} {ph ph' : Ph K (Option V)} (hg : s.g t = .run i c ph) (e0 : s1.mu = s.mu) (e1 : s1.g = s.g) (he : exOf ph' = exOf ph) :
    todoOf (setG s1 t (.run i c ph')) = todoOf s := by
  unfold todoOf
  show s1.mu.elim [] _ = _
  rw [e0]
  cases s.mu with
  | none => rfl
  | some t0 =>
    simp only [Option.elim_some]
    by_cases h : t0 = t
    · subst h
      rw [setG_self, hg]; exact he
    · rw [setG_ne _ _ h, e1]

theorem todo_hold {t i : Nat} {c : Call K V} {ph' : Ph K (Option V)} (e0 : s1.mu = some t) : todoOf (setG s1 t (.run i c ph')) = exOf ph' := by
  unfold todoOf
  show s1.mu.elim [] _ = _
  rw [e0]
  simp only [Option.elim_some]
  rw [setG_self]; rfl

theorem todo_now {t i : Nat} {c : Call K V} {ph : Ph K (Option V)} (hg : s.g t = .run i c ph) (e0 : s.mu = some t) : todoOf s = exOf ph := by
  unfold todoOf
  rw [e0]
  simp only [Option.elim_some]
  rw [hg]; rfl

/-- A step that leaves the maps and entries as they are. -/
theorem quiet (h : Inv s T) {t i : Nat} {c : Call K V} {ph ph' : Ph K (Option V)} (hg : s.g t = .run i c ph) (he : exOf ph' = exOf ph) (htk : taker ph' = none)
    (hpi : PI s T t i (prim c) ph') : Inv (setG s t (.run i c ph')) T := by
  have := advance (E := []) (hold := false) (own := none) h hg rfl rfl rfl (by intro x hx; cases hx) (by simpa using h.good) (todo := todoOf s) (by simpa using h.sh)
    (todo_same hg rfl rfl he) (by rw [List.append_nil]; exact .of_eq rfl rfl rfl rfl rfl) (fun _ _ h => h) nofun nofun (fun k e _ h2 => by rw [htk] at h2; cases h2) (by simpa using hpi)
  simpa using this

/-- A step with the mutex that changes the maps, but not what is in them. -/
theorem silent (h : Inv s T) {t i : Nat} {c : Call K V} {ph ph' : Ph K (Option V)} (hg : s.g t = .run i c ph) (hmu : s.mu = some t) (e0 : s1.mu = s.mu) (e1 : s1.g = s.g)
    (e2 : s1.next = s.next) (e3 : s1.hist = s.hist) (htk : taker ph' = none) (hs1 : SInv s1 (exOf ph') (tval T)) (tr : Tr s s1 (tval T) (tval T) true none)
    (hpi : PI s1 T t i (prim c) ph') : Inv (setG s1 t (.run i c ph')) T := by
  have := advance (E := []) (hold := true) (own := none) h hg e1 e2 e3 (by intro x hx; cases hx) (by simpa using h.good) (todo := exOf ph') (by simpa using hs1)
    (todo_hold (e0.trans hmu)) (by rw [List.append_nil]; exact tr) (fun _ _ h => e0.trans h) (fun _ => hmu) nofun (fun k e _ h2 => by rw [htk] at h2; cases h2) (by simpa using hpi)
  simpa using this

/-- A step that changes what is in the map. -/
theorem effect (h : Inv s T) {t i : Nat} {c : Call K V} {ph ph' : Ph K (Option V)} (hg : s.g t = .run i c ph) {k : K} {n : Option (Option V)}
    (hs1 : SInv s1 (todoOf s) (upd (tval T) k n)) (tr : Tr s s1 (tval T) (upd (tval T) k n) hold none) (e0 : s1.mu = s.mu) (e1 : s1.g = s.g)
    (e2 : s1.next = s.next) (e3 : s1.hist = s.hist) (hh : hold = true → s.mu = some t) (hnl : Nolin T i)
    (hc : (∃ w, prim c = .swap k w ∧ n = some w) ∨ (prim c = .del k ∧ n = none)) (hex : exOf ph = exOf ph') (htak : ∀ k e, prim c = .del k → taker ph' = some e → cur s k = some e)
    (hpi : PI s1 (T ++ [TE.lin i k n (tval T k)]) t i (prim c) ph') : Inv (setG s1 t (.run i c ph')) (T ++ [TE.lin i k n (tval T k)]) := by
  obtain ⟨hi, hn, _⟩ := h.run t i c ph hg
  refine advance (hold := hold) (own := none) h hg e1 e2 e3 ?_ (.snoc h.good ⟨hnl, hn, rfl, c, hi, hc⟩) (todo := todoOf s) ?_ (todo_same hg e0 e1 hex.symm) ?_ (fun _ _ h => e0.trans h) hh nofun
    (fun k e h1 h2 => .inr (htak k e h1 h2)) hpi
  · intro x hx; simp only [List.mem_singleton] at hx; exact ⟨_, _, _, hx⟩
  · rw [tval_snoc]; exact hs1
  · rw [tval_snoc]; exact tr

end

theorem upd_self {v : K → Option (Option V)} {k : K} {n : Option (Option V)} (h : v k = n) : upd v k n = v := by
  funext x
  unfold upd
  split
  · rename_i e; rw [e, h]
  · rfl

theorem miss_frame (s : St K V) : (miss s).mu = s.mu ∧ (miss s).g = s.g ∧ (miss s).next = s.next ∧ (miss s).hist = s.hist ∧ (miss s).heap = s.heap ∧ (miss s).fresh = s.fresh := by
  unfold miss
  split <;> exact ⟨rfl, rfl, rfl, rfl, rfl, rfl⟩

theorem cur_none {s : St K V} {todo : List (K × Nat)} {v : K → Option (Option V)} (h : SInv s todo v) (ha : s.amended = false) {k : K} (hk : s.read.load k = none) : v k = none :=
  h.val_none (by rw [cur_d hk]; exact h.na ha k hk)

theorem iter_start {s : St K V} {T : List (TE K V)} {i : Nat} {c : Call K V} (hi : TE.inv i c ∈ T) {todo : List (K × Nat)} (h : SInv s todo (tval T)) (ha : s.amended = false) :
    IterOk s T i s.read.entries [] := by
  refine ⟨by simpa using s.read.nodup, fun p hp => ?_, by simp, fun k hk _ => ?_⟩
  · have hp := (AMap.mem_entries_iff _ _ _).1 hp
    exact ⟨h.rfresh _ _ hp, .inl hp⟩
  · have : s.read.load k = none := by
      cases hl : s.read.load k with
      | none => rfl
      | some e => exact absurd ((AMap.load_isSome_iff s.read k).1 (by rw [hl]; rfl)) hk
    have hn := Seen.now hi k
    rw [cur_none h ha this] at hn
    exact hn

theorem phase_inv {s s1 : St K V} {T : List (TE K V)} (h : Inv s T) {t i : Nat} {c : Call K V} {ph ph' : Ph K (Option V)} (hg : s.g t = .run i c ph)
    (st : phase s t (prim c) ph = some (s1, ph')) : ∃ T', Inv (setG s1 t (.run i c ph')) T' := by
  obtain ⟨hi, hn, hp⟩ := h.run t i c ph hg
  have hnow := fun k => Seen.now hi k
  cases ph with
  | start =>
    cases hc : prim c with
    | load k =>
      rw [hc] at st hp
      simp only [phase] at st
      cases hr : s.read.load k with
      | some e =>
        rw [hr] at st; cases st
        exact ⟨T, quiet h hg rfl rfl (by rw [hc]; exact ⟨h.sh.rfresh k e hr, .inl (cur_r hr)⟩)⟩
      | none =>
        rw [hr] at st
        cases ha : s.amended with
        | true =>
          simp only [ha, if_true] at st; cases st
          exact ⟨T, quiet h hg rfl rfl (by rw [hc]; trivial)⟩
        | false =>
          simp only [ha] at st; cases st
          refine ⟨T, quiet h hg rfl rfl ?_⟩
          rw [hc]
          show Seen T i k none
          rw [← cur_none h.sh ha hr]; exact hnow k
    | del k =>
      rw [hc] at st hp
      simp only [phase] at st
      cases hr : s.read.load k with
      | some e =>
        rw [hr] at st; cases st
        exact ⟨T, quiet h hg rfl rfl (by rw [hc]; exact ⟨hp, h.sh.rfresh k e hr, .inl hr⟩)⟩
      | none =>
        rw [hr] at st
        cases ha : s.amended with
        | true =>
          simp only [ha, if_true] at st; cases st
          exact ⟨T, quiet h hg rfl rfl (by rw [hc]; exact hp)⟩
        | false =>
          simp only [ha] at st; cases st
          refine ⟨T, quiet h hg rfl rfl ?_⟩
          rw [hc]
          refine .inr ⟨rfl, hp, ?_⟩
          rw [← cur_none h.sh ha hr]; exact hnow k
    | swap k w =>
      rw [hc] at st hp
      simp only [phase] at st
      cases hr : s.read.load k with
      | some e =>
        rw [hr] at st; cases st
        exact ⟨T, quiet h hg rfl rfl (by rw [hc]; exact ⟨hp, h.sh.rfresh k e hr, .inl hr⟩)⟩
      | none =>
        rw [hr] at st; cases st
        exact ⟨T, quiet h hg rfl rfl (by rw [hc]; exact hp)⟩
    | range =>
      rw [hc] at st hp
      simp only [phase] at st
      cases ha : s.amended with
      | true =>
        simp only [ha, if_true] at st; cases st
        exact ⟨T, quiet h hg rfl rfl (by rw [hc]; trivial)⟩
      | false =>
        simp only [ha] at st; cases st
        exact ⟨T, quiet h hg rfl rfl (by rw [hc]; exact iter_start hi h.sh ha)⟩
  | wait =>
    have st' : (if s.mu = none then some ({ s with mu := some t }, Ph.locked) else none) = some (s1, ph') := by
      cases hc : prim c <;> rw [hc] at st <;> exact st
    split at st' <;> [skip; cases st']
    rename_i hmu
    cases st'
    have htd : todoOf s = [] := by unfold todoOf; rw [hmu]; rfl
    refine ⟨T, ?_⟩
    have := advance (E := []) (hold := false) (own := none) (s1 := { s with mu := some t }) (ph' := .locked) h hg rfl rfl rfl (by intro x hx; cases hx) (by simpa using h.good) (todo := [])
      (by rw [List.append_nil, ← htd]; exact h.sh.of_eq rfl rfl rfl rfl rfl) (todo_hold rfl) (by rw [List.append_nil]; exact .of_eq rfl rfl rfl rfl rfl)
      (fun t0 _ h0 => by rw [hmu] at h0; cases h0) nofun nofun nofun (by rw [List.append_nil]; exact ⟨rfl, hp⟩)
    simpa using this
  | rel n =>
    have st' : some ({ s with mu := none }, n) = some (s1, ph') := by
      cases hc : prim c <;> rw [hc] at st <;> exact st
    cases st'
    obtain ⟨hmu, hp⟩ := hp
    have htd : todoOf s = [] := todo_now hg hmu
    refine ⟨T, ?_⟩
    have hpi : PI { s with mu := none } T t i (prim c) ph' := by
      cases ph' with
      | fin e b => cases b <;> cases hc : prim c <;> rw [hc] at hp <;> exact hp
      | iter a b => cases hc : prim c <;> rw [hc] at hp <;> exact hp
      | out r => exact (show Just T i (prim c) r by cases hc : prim c <;> rw [hc] at hp <;> exact hp)
      | _ => cases hc : prim c <;> rw [hc] at hp <;> exact hp.elim
    have := advance (E := []) (hold := false) (own := none) (s1 := { s with mu := none }) (ph' := ph') h hg rfl rfl rfl (by intro x hx; cases hx) (by simpa using h.good) (todo := [])
      (by rw [List.append_nil, ← htd]; exact h.sh.of_eq rfl rfl rfl rfl rfl) rfl (by rw [List.append_nil]; exact .of_eq rfl rfl rfl rfl rfl)
      (fun t0 h1 h0 => by rw [hmu] at h0; cases h0; exact absurd rfl h1) nofun nofun (fun k e h1 h2 => .inl ?_) (by rw [List.append_nil]; exact hpi)
    · simpa using this
    · refine ⟨i, c, _, hg, h1, ?_⟩
      match ph', h2, hp with
      | .fin _ true, h2, _ => exact h2
      | .rel (.fin _ true), h2, hp => rw [h1] at hp; exact hp.elim
  | locked =>
    obtain ⟨hmu, hp⟩ := hp
    have htd : todoOf s = [] := todo_now hg hmu
    have hsh := h.sh
    rw [htd] at hsh
    cases hc : prim c with
    | load k =>
      rw [hc] at st hp
      simp only [phase] at st
      cases hr : s.read.load k with
      | some e =>
        rw [hr] at st; cases st
        exact ⟨T, quiet h hg rfl rfl (by rw [hc]; exact ⟨hmu, h.sh.rfresh k e hr, .inl (cur_r hr)⟩)⟩
      | none =>
        rw [hr] at st
        cases ha : s.amended with
        | true =>
          simp only [ha, if_true] at st
          obtain ⟨m1, m2⟩ := miss_ok hsh ha
          obtain ⟨f1, f2, f3, f4, _⟩ := miss_frame s
          cases hl : s.look k with
          | some e =>
            rw [hl] at st; cases st
            have hcur : cur s k = some e := by rw [cur_d hr]; exact hl
            have hlo : LoadOk s T i k e := ⟨hsh.cfresh hcur, .inl hcur⟩
            have hlo' := LoadOk.tr (E := []) h.sh (by rw [List.append_nil]; exact m2) hi hlo
            rw [List.append_nil] at hlo'
            exact ⟨T, silent h hg hmu f1 f2 f3 f4 rfl m1 m2 (by rw [hc]; exact ⟨f1.trans hmu, hlo'⟩)⟩
          | none =>
            rw [hl] at st; cases st
            refine ⟨T, silent h hg hmu f1 f2 f3 f4 rfl m1 m2 ?_⟩
            rw [hc]
            refine ⟨f1.trans hmu, ?_⟩
            show Seen T i k none
            have : tval T k = none := hsh.val_none (by rw [cur_d hr]; exact hl)
            rw [← this]; exact hnow k
        | false =>
          simp only [ha] at st; cases st
          refine ⟨T, quiet h hg rfl rfl ?_⟩
          rw [hc]
          refine ⟨hmu, ?_⟩
          show Seen T i k none
          rw [← cur_none h.sh ha hr]; exact hnow k
    | del k =>
      rw [hc] at st hp
      simp only [phase] at st
      cases hr : s.read.load k with
      | some e =>
        rw [hr] at st; cases st
        exact ⟨T, quiet h hg rfl rfl (by rw [hc]; exact ⟨hmu, hp, h.sh.rfresh k e hr, .inl hr⟩)⟩
      | none =>
        rw [hr] at st
        cases ha : s.amended with
        | true =>
          rw [if_pos ha] at st
          obtain ⟨d1, d2⟩ := drop_ok hsh ha hr
          generalize hs0 : ({ s with dirty := s.dirty.map fun d => d.delete k } : St K V) = s0 at st d1 d2
          have ha0 : s0.amended = true := by rw [← hs0]; exact ha
          obtain ⟨m1, m2⟩ := miss_ok d1 ha0
          obtain ⟨f1, f2, f3, f4, f5, f6⟩ := miss_frame s0
          have g1 : (miss s0).mu = s.mu := by rw [f1, ← hs0]
          have g2 : (miss s0).g = s.g := by rw [f2, ← hs0]
          have g3 : (miss s0).next = s.next := by rw [f3, ← hs0]
          have g4 : (miss s0).hist = s.hist := by rw [f4, ← hs0]
          have g5 : (miss s0).heap = s.heap := by rw [f5, ← hs0]
          have g6 : (miss s0).fresh = s.fresh := by rw [f6, ← hs0]
          have htr := Tr.trans hsh d2 m2
          cases hl : s.look k with
          | some e =>
            rw [hl] at st; cases st
            have hcur : cur s k = some e := by rw [cur_d hr]; exact hl
            obtain ⟨w, hw⟩ := hsh.dt k e hr hl
            have hv : tval T k = some w := by rw [hsh.val hcur, hw]; rfl
            refine ⟨_, effect (ph' := .rel (.fin e true)) h hg (k := k) (n := none) (by rw [htd]; exact m1) htr g1 g2 g3 g4 (fun _ => hmu) hp (.inr ⟨hc, rfl⟩) rfl ?_ ?_⟩
            · intro k' e' h1 h2
              rw [hc] at h1; cases h1
              cases h2
              exact hcur
            · rw [hc]
              refine ⟨g1.trans hmu, by rw [g6]; exact hsh.cfresh hcur, ?_, w, by rw [g5]; exact hw, ?_⟩
              · have : cur s0 k ≠ some e := by
                  rcases d2.C k e hcur with hx | hx
                  · exfalso
                    have h0 : cur s0 k = none := by
                      rw [← hs0]
                      unfold cur St.look
                      rw [hr]
                      cases hd : s.dirty with
                      | none => simp
                      | some d => simp
                    rw [h0] at hx; cases hx
                  · exact hx.1
                exact (m2.X k e (by rw [← f6, g6]; exact hsh.cfresh hcur) this).1
              · rw [hv]; simp
          | none =>
            rw [hl] at st; cases st
            have hv : tval T k = none := hsh.val_none (by rw [cur_d hr]; exact hl)
            rw [upd_self hv] at m1 htr
            refine ⟨T, silent h hg hmu g1 g2 g3 g4 rfl m1 htr ?_⟩
            rw [hc]
            refine ⟨g1.trans hmu, .inr ⟨rfl, hp, ?_⟩⟩
            rw [← hv]; exact hnow k
        | false =>
          rw [if_neg (by rw [ha]; nofun)] at st; cases st
          refine ⟨T, quiet h hg rfl rfl ?_⟩
          rw [hc]
          refine ⟨hmu, .inr ⟨rfl, hp, ?_⟩⟩
          rw [← cur_none h.sh ha hr]; exact hnow k
    | swap k w =>
      rw [hc] at st hp
      simp only [phase] at st
      cases hr : s.read.load k with
      | some e =>
        rw [hr] at st; cases st
        exact ⟨T, quiet h hg rfl rfl (by rw [hc]; exact ⟨hmu, hp, k, w, rfl, hr⟩)⟩
      | none =>
        rw [hr] at st
        cases hl : s.look k with
        | some e =>
          simp only [hl] at st; cases st
          obtain ⟨u, hu⟩ := hsh.dt k e hr hl
          exact ⟨T, quiet h hg rfl rfl (by rw [hc]; exact ⟨hmu, hp, k, w, rfl, by rw [cur_d hr]; exact hl, by rw [hu]; nofun⟩)⟩
        | none =>
          simp only [hl] at st
          cases ha : s.amended with
          | true =>
            rw [if_pos ha] at st; cases st
            exact ⟨T, quiet h hg rfl rfl (by rw [hc]; exact ⟨hmu, hp, k, w, rfl, hr, hl, (hsh.am ha).1⟩)⟩
          | false =>
            rw [if_neg (by rw [ha]; nofun)] at st
            cases hd : s.dirty with
            | some d =>
              rw [hd] at st; cases st
              exact ⟨T, quiet h hg rfl rfl (by rw [hc]; exact ⟨hmu, hp, k, w, rfl, hr, hl, by rw [hd]; nofun⟩)⟩
            | none =>
              rw [hd] at st; cases st
              obtain ⟨b1, b2⟩ := begin_ok hsh ha hd
              exact ⟨T, silent h hg hmu rfl rfl rfl rfl rfl b1 b2 (by rw [hc]; exact ⟨hmu, hp, k, w, rfl, hr, rfl, nofun, ha⟩)⟩
    | range =>
      rw [hc] at st hp
      simp only [phase] at st
      cases ha : s.amended with
      | true =>
        rw [if_pos ha] at st; cases st
        obtain ⟨b1, b2⟩ := promote_ok hsh ha
        exact ⟨T, silent h hg hmu rfl rfl rfl rfl rfl b1 b2 (by rw [hc]; exact ⟨hmu, iter_start hi b1 rfl⟩)⟩
      | false =>
        rw [if_neg (by rw [ha]; nofun)] at st; cases st
        exact ⟨T, quiet h hg rfl rfl (by rw [hc]; exact ⟨hmu, iter_start hi hsh ha⟩)⟩
  | unexp e =>
    obtain ⟨hmu, hp, k, w, hc, hr⟩ := hp
    have htd : todoOf s = [] := todo_now hg hmu
    have hsh := h.sh
    rw [htd] at hsh
    rw [hc] at st hp
    simp only [phase] at st
    cases hh : s.heap k e with
    | expunged =>
      rw [hh] at st; cases st
      obtain ⟨b1, b2⟩ := unexp_ok hsh hr hh
      refine ⟨T, silent h hg hmu rfl rfl rfl rfl rfl b1 b2 ?_⟩
      rw [hc]
      refine ⟨hmu, hp, k, w, rfl, cur_r hr, ?_⟩
      show (if k = k ∧ e = e then Ptr.nil else s.heap k e) ≠ _
      simp
    | nil =>
      rw [hh] at st; cases st
      exact ⟨T, quiet h hg rfl rfl (by rw [hc]; exact ⟨hmu, hp, k, w, rfl, cur_r hr, by rw [hh]; nofun⟩)⟩
    | val u =>
      rw [hh] at st; cases st
      exact ⟨T, quiet h hg rfl rfl (by rw [hc]; exact ⟨hmu, hp, k, w, rfl, cur_r hr, by rw [hh]; nofun⟩)⟩
  | swapL e =>
    obtain ⟨hmu, hp, k, w, hc, hr, hx⟩ := hp
    rw [hc] at st hp
    simp only [phase] at st
    cases st
    obtain ⟨b1, b2⟩ := set_ok h.sh hr hx (p := .val w) nofun (.inr ⟨w, rfl⟩) true
    refine ⟨_, effect (ph' := .rel (.out (.prev (s.heap k e).get))) h hg b1 b2 rfl rfl rfl rfl (fun _ => hmu) hp (.inl ⟨w, hc, rfl⟩) rfl (fun _ _ h1 _ => by rw [hc] at h1; cases h1) ?_⟩
    rw [hc]
    refine ⟨hmu, ?_⟩
    show TE.lin i k (some w) _ ∈ _
    rw [h.sh.val hr]
    simp [Ptr.get]
  | exp l =>
    obtain ⟨hmu, hp, k, w, hc, h1, h2, h3, h4⟩ := hp
    rw [hc] at st hp
    match l, hg, st with
    | [], hg, st =>
      simp only [phase] at st
      cases st
      exact ⟨T, quiet h hg rfl rfl (by rw [hc]; exact ⟨hmu, hp, k, w, rfl, h1, h2, h3⟩)⟩
    | _ :: _, _, st => simp [phase] at st
  | pub =>
    obtain ⟨hmu, hp, k, w, hc, h1, h2, h3⟩ := hp
    have htd : todoOf s = [] := todo_now hg hmu
    have hsh := h.sh
    rw [htd] at hsh
    rw [hc] at st hp
    simp only [phase] at st
    cases st
    obtain ⟨b1, b2⟩ := pub_ok hsh h3 h1 h2 w
    refine ⟨_, effect (ph' := .rel (.out (.prev none))) h hg (by rw [htd]; exact b1) b2 rfl rfl rfl rfl (fun _ => hmu) hp (.inl ⟨w, hc, rfl⟩) rfl (fun _ _ h1 _ => by rw [hc] at h1; cases h1) ?_⟩
    rw [hc]
    refine ⟨hmu, ?_⟩
    show TE.lin i k (some w) _ ∈ _
    rw [hsh.val_none (k := k) (by rw [cur_d h1]; exact h2)]
    simp
  | fin e b =>
    cases hc : prim c with
    | load k =>
      rw [hc] at st hp
      simp only [phase] at st
      cases st
      refine ⟨T, quiet h hg rfl rfl ?_⟩
      rw [hc]
      show Seen T i k _
      obtain ⟨_, hcur | ⟨_, h2, h3⟩⟩ := hp
      · rw [← h.sh.val hcur]; exact hnow k
      · cases hh : s.heap k e with
        | val w => exact h3 w hh
        | nil => exact h2
        | expunged => exact h2
    | del k =>
      rw [hc] at st hp
      simp only [phase] at st
      cases hh : s.heap k e with
      | val w =>
        rw [hh] at st; cases st
        cases b with
        | false =>
          obtain ⟨hnl, _, hr | ⟨_, hx, _⟩⟩ := hp
          · obtain ⟨b1, b2⟩ := set_ok h.sh (cur_r hr) (by rw [hh]; nofun) (p := .nil) nofun (.inl hr) false
            refine ⟨_, effect (ph' := .out (.prev (some w))) h hg b1 b2 rfl rfl rfl rfl nofun hnl (.inr ⟨hc, rfl⟩) rfl (fun _ _ _ h2 => by cases h2) ?_⟩
            rw [hc]
            refine .inl ?_
            rw [h.sh.val (cur_r hr), hh]
            simp [Ptr.get]
          · rw [hh] at hx; cases hx
        | true =>
          obtain ⟨_, hcur, u, hu, hlin⟩ := hp
          rw [hh] at hu; cases hu
          obtain ⟨b1, b2⟩ := clear_ok h.sh hcur hh false
          refine ⟨T, ?_⟩
          have := advance (E := []) (hold := false) (own := some (k, e)) (s1 := setP s k e .nil) (ph' := .out (.prev (some w))) h hg rfl rfl rfl (by intro x hx; cases hx) (by simpa using h.good)
            (todo := todoOf s) (by rw [List.append_nil]; exact b1) (todo_same hg rfl rfl rfl) (by rw [List.append_nil]; exact b2) (fun _ _ h => h) nofun
            (fun k' e' he => by cases he; exact ⟨i, c, _, hg, hc, rfl⟩) nofun (by rw [List.append_nil, hc]; exact .inl hlin)
          simpa using this
      | nil =>
        rw [hh] at st; cases st
        cases b with
        | false =>
          refine ⟨T, quiet h hg rfl rfl ?_⟩
          rw [hc]
          obtain ⟨hnl, _, hr | ⟨_, hx, hy⟩⟩ := hp
          · refine .inr ⟨rfl, hnl, ?_⟩
            have := h.sh.val (cur_r hr)
            rw [hh] at this
            have h2 := hnow k
            rw [this] at h2
            exact h2
          · exact .inr ⟨rfl, hnl, hy⟩
        | true => obtain ⟨_, _, u, hu, _⟩ := hp; rw [hh] at hu; cases hu
      | expunged =>
        rw [hh] at st; cases st
        cases b with
        | false =>
          refine ⟨T, quiet h hg rfl rfl ?_⟩
          rw [hc]
          obtain ⟨hnl, _, hr | ⟨_, hx, hy⟩⟩ := hp
          · refine .inr ⟨rfl, hnl, ?_⟩
            have := h.sh.val (cur_r hr)
            rw [hh] at this
            have h2 := hnow k
            rw [this] at h2
            exact h2
          · exact .inr ⟨rfl, hnl, hy⟩
        | true => obtain ⟨_, _, u, hu, _⟩ := hp; rw [hh] at hu; cases hu
    | swap k w =>
      rw [hc] at st hp
      simp only [phase] at st
      obtain ⟨hnl, _, hsw⟩ := hp
      cases hh : s.heap k e with
      | expunged =>
        rw [hh] at st; cases st
        exact ⟨T, quiet h hg rfl rfl (by rw [hc]; exact hnl)⟩
      | nil =>
        rw [hh] at st; cases st
        rcases hsw with hr | ⟨_, hx⟩
        · obtain ⟨b1, b2⟩ := set_ok h.sh (cur_r hr) (by rw [hh]; nofun) (p := .val w) nofun (.inl hr) false
          refine ⟨_, effect (ph' := .out (.prev none)) h hg b1 b2 rfl rfl rfl rfl nofun hnl (.inl ⟨w, hc, rfl⟩) rfl (fun _ _ _ h2 => by cases h2) ?_⟩
          rw [hc]
          show TE.lin i k (some w) _ ∈ _
          rw [h.sh.val (cur_r hr), hh]
          simp [Ptr.get]
        · rw [hh] at hx; cases hx
      | val u =>
        rw [hh] at st; cases st
        rcases hsw with hr | ⟨_, hx⟩
        · obtain ⟨b1, b2⟩ := set_ok h.sh (cur_r hr) (by rw [hh]; nofun) (p := .val w) nofun (.inl hr) false
          refine ⟨_, effect (ph' := .out (.prev (some u))) h hg b1 b2 rfl rfl rfl rfl nofun hnl (.inl ⟨w, hc, rfl⟩) rfl (fun _ _ _ h2 => by cases h2) ?_⟩
          rw [hc]
          show TE.lin i k (some w) _ ∈ _
          rw [h.sh.val (cur_r hr), hh]
          simp [Ptr.get]
        · rw [hh] at hx; cases hx
    | range =>
      rw [hc] at hp
      exact hp.elim
  | iter l seen =>
    cases hc : prim c with
    | range =>
      rw [hc] at st hp
      match l, hg, st, hp with
      | [], hg, st, ⟨h1, _, h3, h4⟩ =>
        simp only [phase] at st
        cases st
        refine ⟨T, quiet h hg rfl rfl ?_⟩
        rw [hc]
        exact ⟨by simpa using h1, h3, fun _ k hk => h4 k (by simp) hk⟩
      | _ :: _, _, st, _ => simp [phase] at st
    | load k => rw [hc] at hp; exact hp.elim
    | del k => rw [hc] at hp; exact hp.elim
    | swap k w => rw [hc] at hp; exact hp.elim
  | out r =>
    exfalso
    cases hc : prim c <;> rw [hc] at st <;> simp [phase] at st

theorem loop_inv {s s1 : St K V} {T : List (TE K V)} (h : Inv s T) {t i : Nat} {c : Call K V} {ph ph' : Ph K (Option V)} (hg : s.g t = .run i c ph) {n : Nat} {go : Bool}
    (st : loop s n go ph = some (s1, ph')) : ∃ T', Inv (setG s1 t (.run i c ph')) T' := by
  obtain ⟨hi, hn, hp⟩ := h.run t i c ph hg
  have hnow := fun k => Seen.now hi k
  match ph, hg, st, hp with
  | .exp todo, hg, st, hp =>
    obtain ⟨hmu, hp, k0, w, hc, h1, h2, h3, h4⟩ := hp
    have htd : todoOf s = todo := todo_now hg hmu
    have hsh := h.sh
    rw [htd] at hsh
    simp only [loop] at st
    match hx : todo[n]? with
    | none => rw [hx] at st; cases st
    | some (k, e) =>
      rw [hx] at st
      simp only at st
      obtain ⟨a1, a2, a3⟩ := expunge_ok hsh hx
      have hk := (hsh.td _ (List.mem_of_getElem? hx)).1
      simp only at hk
      cases hh : s.heap k e with
      | nil =>
        rw [hh] at st; cases st
        obtain ⟨b1, b2⟩ := a1 hh
        exact ⟨T, silent h hg hmu rfl rfl rfl rfl rfl b1 b2 (by rw [hc] at hp ⊢; exact ⟨hmu, hp, k0, w, rfl, h1, h2, h3, h4⟩)⟩
      | expunged =>
        rw [hh] at st; cases st
        exact ⟨T, silent h hg hmu rfl rfl rfl rfl rfl (a2 hh) (.of_eq rfl rfl rfl rfl rfl) (by rw [hc] at hp ⊢; exact ⟨hmu, hp, k0, w, rfl, h1, h2, h3, h4⟩)⟩
      | val u =>
        rw [hh] at st; cases st
        obtain ⟨b1, b2⟩ := a3 u hh
        refine ⟨T, silent h hg hmu rfl rfl rfl rfl rfl b1 b2 ?_⟩
        rw [hc] at hp ⊢
        refine ⟨hmu, hp, k0, w, rfl, h1, ?_, ?_, h4⟩
        · exact b1.na h4 k0 h1
        · intro hd
          simp only [Option.map_eq_none_iff] at hd
          exact h3 hd
  | .iter todo seen, hg, st, hp =>
    cases hc : prim c with
    | load k => rw [hc] at hp; exact hp.elim
    | del k => rw [hc] at hp; exact hp.elim
    | swap k w => rw [hc] at hp; exact hp.elim
    | range =>
      rw [hc] at hp
      obtain ⟨h1, h2, h3, h4⟩ := hp
      simp only [loop] at st
      match hx : todo[n]? with
      | none => rw [hx] at st; cases st
      | some (k, e) =>
        rw [hx] at st
        simp only at st
        rw [List.nodup_append] at h1
        obtain ⟨t1, t2, t3⟩ := todo_erase hx h1.1
        have hmem : (k, e) ∈ todo := List.mem_of_getElem? hx
        have hkt : k ∈ todo.map Prod.fst := List.mem_map.2 ⟨_, hmem, rfl⟩
        have hks : k ∉ seen.map Prod.fst := fun hc => h1.2.2 k hkt k hc rfl
        obtain ⟨_, hd⟩ := h2 _ hmem
        simp only at hd
        have hseen : Seen T i k (s.heap k e).get := by
          rcases hd with hd | ⟨_, hd1, hd2⟩
          · rw [← h.sh.val (cur_r hd)]; exact hnow k
          · rw [hd1]; exact hd2
        have hdis : ∀ a ∈ (todo.eraseIdx n).map Prod.fst, a ≠ k ∧ a ∉ seen.map Prod.fst := by
          intro a ha
          obtain ⟨p, hp, rfl⟩ := List.mem_map.1 ha
          exact ⟨t2 p hp, fun hc => h1.2.2 p.1 (List.mem_map.2 ⟨p, erase_sub hp, rfl⟩) p.1 hc rfl⟩
        have hrest : ∀ x, x ≠ k → x ∉ (todo.eraseIdx n).map Prod.fst → x ∉ todo.map Prod.fst := by
          intro x hxk hxe hxt
          obtain ⟨p, hp, rfl⟩ := List.mem_map.1 hxt
          rcases (t1 p).1 hp with rfl | hp
          · exact hxk rfl
          · exact hxe (List.mem_map.2 ⟨p, hp, rfl⟩)
        match hw : (s.heap k e).get with
        | none =>
          rw [hw] at st hseen; cases st
          refine ⟨T, quiet h hg rfl rfl ?_⟩
          rw [hc]
          refine ⟨List.nodup_append.2 ⟨t3, h1.2.1, fun a ha b hb hab => (hdis a ha).2 (hab ▸ hb)⟩, fun p hp => h2 p (erase_sub hp), h3, fun x hx1 hx2 => ?_⟩
          by_cases hxk : x = k
          · rw [hxk]; exact hseen
          · exact h4 x (hrest x hxk hx1) hx2
        | some w =>
          rw [hw] at st hseen
          simp only [Option.some.injEq, Prod.mk.injEq] at st
          obtain ⟨rfl, rfl⟩ := st
          have hsn : ((seen ++ [(k, w)]).map Prod.fst).Nodup := by
            rw [List.map_append, List.nodup_append]
            exact ⟨h1.2.1, by simp, fun a ha b hb hab => by simp at hb; subst hb; subst hab; exact hks ha⟩
          have hsp : ∀ p ∈ seen ++ [(k, w)], Seen T i p.1 (some p.2) := by
            intro p hp
            rcases List.mem_append.1 hp with hp | hp
            · exact h3 p hp
            · simp only [List.mem_singleton] at hp; rw [hp]; exact hseen
          cases go with
          | true =>
            refine ⟨T, quiet h hg rfl rfl ?_⟩
            rw [hc]
            refine ⟨List.nodup_append.2 ⟨t3, hsn, fun a ha b hb hab => ?_⟩, fun p hp => h2 p (erase_sub hp), hsp, fun x hx1 hx2 => ?_⟩
            · subst hab
              rw [List.map_append, List.mem_append] at hb
              rcases hb with hb | hb
              · exact (hdis a ha).2 hb
              · simp at hb; exact (hdis a ha).1 hb
            · rw [List.map_append, List.mem_append, not_or] at hx2
              exact h4 x (hrest x (by simpa using hx2.2) hx1) hx2.1
          | false =>
            refine ⟨T, quiet h hg rfl rfl ?_⟩
            rw [hc]
            exact ⟨hsn, hsp, nofun⟩

theorem init_inv : Inv (St.init : St K V) [] := by
  refine ⟨⟨nofun, nofun, nofun, nofun, nofun, fun _ _ _ => rfl, fun _ => rfl, nofun, by simp [todoOf, St.init], nofun⟩, .nil, nofun, nofun, ?_, nofun, rfl⟩
  rintro t t' k e ⟨_, _, _, h, _⟩
  cases h

theorem res_inv {T : List (TE K V)} (h : TGood T) {i : Nat} {r : Out K V} (h1 : TE.res i r ∈ T) : ∃ c, TE.inv i c ∈ T := by
  induction h with
  | nil => simp at h1
  | @snoc A x _ hx ih =>
    rcases List.mem_append.1 h1 with h1 | h1
    · obtain ⟨c, hc⟩ := ih h1
      exact ⟨c, List.mem_append_left _ hc⟩
    · simp only [List.mem_singleton] at h1
      subst h1
      obtain ⟨_, c, _, hc, _⟩ := hx
      exact ⟨c, List.mem_append_left _ hc⟩

/-- What the others may rely on when goroutine `t` begins or ends a call. -/
theorem border {s : St K V} {T : List (TE K V)} (h : Inv s T) (x : TE K V) (hx : ∀ j k n o, x ≠ .lin j k n o) {t0 i0 : Nat} {c0 : Call K V} {ph0 : Ph K (Option V)}
    (h0 : s.g t0 = .run i0 c0 ph0) : PI s (T ++ [x]) t0 i0 (prim c0) ph0 := by
  obtain ⟨b1, b2, b3⟩ := h.run t0 i0 c0 ph0 h0
  have hv : tval (T ++ [x]) = tval T := by
    rw [tval_snoc]
    cases x with
    | lin j k n o => exact absurd rfl (hx j k n o)
    | _ => rfl
  refine PI.app (s1 := s) (hold := false) (own := none) (i := i0 + 1) (t := t0 + 1) h.sh ?_ ?_ (by omega) b1 (by omega) (fun _ _ h => h) nofun nofun b3
  · rw [hv]; exact .of_eq rfl rfl rfl rfl rfl
  · intro j k n o hm
    simp only [List.mem_singleton] at hm
    exact absurd hm.symm (hx j k n o)

theorem act_inv {s s' : St K V} {T : List (TE K V)} (h : Inv s T) {a : Act K V} (st : act s a = some s') : ∃ T', Inv s' T' := by
  cases a with
  | step t =>
    simp only [act] at st
    match hg : s.g t with
    | .idle => rw [hg] at st; cases st
    | .run i c ph =>
      rw [hg] at st
      simp only [Option.map_eq_some_iff] at st
      obtain ⟨⟨s1, ph'⟩, hp, rfl⟩ := st
      exact phase_inv h hg hp
  | pick t n go =>
    simp only [act] at st
    match hg : s.g t with
    | .idle => rw [hg] at st; cases st
    | .run i c ph =>
      rw [hg] at st
      simp only [Option.map_eq_some_iff] at st
      obtain ⟨⟨s1, ph'⟩, hp, rfl⟩ := st
      exact loop_inv h hg hp
  | call t c =>
    simp only [act] at st
    match hg : s.g t with
    | .run i c ph => rw [hg] at st; cases st
    | .idle =>
      rw [hg] at st
      simp only [Option.some.injEq] at st
      subst st
      have hnew : ∀ c', TE.inv s.next c' ∉ T := fun c' hc => absurd (h.nxt _ _ hc) (by omega)
      have hgo : ∀ t0, t0 ≠ t → (setG s t (.run s.next c .start)).g t0 = s.g t0 := fun t0 h0 => setG_ne s _ h0
      have hself : (setG s t (.run s.next c .start)).g t = .run s.next c .start := setG_self s t _
      have hsub : ∀ {i c'}, TE.inv i c' ∈ T → TE.inv i c' ∈ T ++ [.inv s.next c] := fun h => List.mem_append_left _ h
      have htk : ∀ t0 k e, Takes { setG s t (.run s.next c .start) with next := s.next + 1, hist := s.hist ++ [.inv s.next c] } t0 k e → Takes s t0 k e := by
        rintro t0 k e ⟨i0, c0, ph0, a, b, d⟩
        change (setG s t (.run s.next c .start)).g t0 = _ at a
        by_cases ht : t0 = t
        · subst ht; rw [hself] at a; cases a; cases d
        · rw [hgo t0 ht] at a; exact ⟨i0, c0, ph0, a, b, d⟩
      refine ⟨T ++ [.inv s.next c], ?_, .snoc (x := .inv s.next c) h.good hnew, ?_, ?_, ?_, ?_, ?_⟩
      · have htd : todoOf { setG s t (.run s.next c .start) with next := s.next + 1, hist := s.hist ++ [.inv s.next c] } = todoOf s := by
          unfold todoOf
          show s.mu.elim [] _ = _
          cases s.mu with
          | none => rfl
          | some t0 =>
            simp only [Option.elim_some]
            show todoG ((setG s t (.run s.next c .start)).g t0) = _
            by_cases ht : t0 = t
            · subst ht; rw [hself, hg]; rfl
            · rw [hgo t0 ht]
        rw [htd, tval_snoc]
        exact h.sh.of_eq rfl rfl rfl rfl rfl
      · intro t0 i0 c0 ph0 h0
        change (setG s t (.run s.next c .start)).g t0 = _ at h0
        by_cases ht : t0 = t
        · subst ht
          rw [hself] at h0
          cases h0
          refine ⟨by simp, ?_, ?_⟩
          · intro r hr
            simp only [List.mem_append, List.mem_singleton, reduceCtorEq, or_false] at hr
            obtain ⟨c', hc'⟩ := res_inv h.good hr
            exact hnew c' hc'
          · have hnl : Nolin (T ++ [.inv s.next c]) s.next := by
              intro k n o hm
              simp only [List.mem_append, List.mem_singleton, reduceCtorEq, or_false] at hm
              obtain ⟨c', hc', _⟩ := lin_inv h.good hm
              exact hnew c' hc'
            show NL _ _ _
            cases prim c with
            | load k => trivial
            | swap k w => exact hnl
            | del k => exact hnl
            | range => trivial
        · rw [hgo t0 ht] at h0
          obtain ⟨b1, b2, b3⟩ := h.run t0 i0 c0 ph0 h0
          refine ⟨hsub b1, ?_, ?_⟩
          · intro r hr
            simp only [List.mem_append, List.mem_singleton, reduceCtorEq, or_false] at hr
            exact b2 r hr
          · have := border h (.inv s.next c) nofun h0
            cases ph0 <;> exact this
      · intro t1 t2 j c1 ph1 c2 ph2 h1 h2
        change (setG s t (.run s.next c .start)).g t1 = _ at h1
        change (setG s t (.run s.next c .start)).g t2 = _ at h2
        by_cases ht1 : t1 = t
        · by_cases ht2 : t2 = t
          · rw [ht1, ht2]
          · subst ht1
            rw [hself] at h1
            cases h1
            rw [hgo t2 ht2] at h2
            exact absurd (h.run t2 _ c2 ph2 h2).1 (hnew c2)
        · by_cases ht2 : t2 = t
          · subst ht2
            rw [hself] at h2
            cases h2
            rw [hgo t1 ht1] at h1
            exact absurd (h.run t1 _ c1 ph1 h1).1 (hnew c1)
          · rw [hgo t1 ht1] at h1
            rw [hgo t2 ht2] at h2
            exact h.inj t1 t2 j c1 ph1 c2 ph2 h1 h2
      · intro t1 t2 k e h1 h2
        exact h.tak t1 t2 k e (htk _ _ _ h1) (htk _ _ _ h2)
      · intro j c' hj
        show j < s.next + 1
        rcases List.mem_append.1 hj with hj | hj
        · have := h.nxt j c' hj; omega
        · simp at hj; omega
      · show s.hist ++ _ = _
        rw [List.filterMap_append, h.his]; rfl
  | ret t =>
    simp only [act] at st
    match hg : s.g t with
    | .idle => rw [hg] at st; cases st
    | .run i c ph =>
      rw [hg] at st
      match ph, hg, st with
      | .out r, hg, st =>
        simp only [Option.some.injEq] at st
        subst st
        obtain ⟨hi, hn, hp⟩ := h.run t i c _ hg
        have hj : Just T i (prim c) r := by cases hc : prim c <;> rw [hc] at hp <;> exact hp
        have hgo : ∀ t0, t0 ≠ t → (setG s t .idle).g t0 = s.g t0 := fun t0 h0 => setG_ne s _ h0
        have hself : (setG s t .idle).g t = .idle := setG_self s t _
        have hrun : ∀ t0 i0 c0 ph0, (setG s t .idle).g t0 = .run i0 c0 ph0 → t0 ≠ t ∧ s.g t0 = .run i0 c0 ph0 := by
          intro t0 i0 c0 ph0 h0
          by_cases ht : t0 = t
          · subst ht; rw [hself] at h0; cases h0
          · rw [hgo t0 ht] at h0; exact ⟨ht, h0⟩
        have htk : ∀ t0 k e, Takes { setG s t .idle with hist := s.hist ++ [.res i (answer c r)] } t0 k e → Takes s t0 k e := by
          rintro t0 k e ⟨i0, c0, ph0, a, b, d⟩
          exact ⟨i0, c0, ph0, (hrun t0 i0 c0 ph0 a).2, b, d⟩
        refine ⟨T ++ [.res i (answer c r)], ?_, .snoc (x := .res i (answer c r)) h.good ⟨hn, c, r, hi, rfl, hj⟩, ?_, ?_, ?_, ?_, ?_⟩
        · have htd : todoOf { setG s t .idle with hist := s.hist ++ [.res i (answer c r)] } = todoOf s := by
            unfold todoOf
            show s.mu.elim [] _ = _
            cases s.mu with
            | none => rfl
            | some t0 =>
              simp only [Option.elim_some]
              show todoG ((setG s t .idle).g t0) = _
              by_cases ht : t0 = t
              · subst ht; rw [hself, hg]; rfl
              · rw [hgo t0 ht]
          rw [htd, tval_snoc]
          exact h.sh.of_eq rfl rfl rfl rfl rfl
        · intro t0 i0 c0 ph0 h0
          obtain ⟨ht, h1⟩ := hrun t0 i0 c0 ph0 h0
          clear h0
          have h0 := h1
          obtain ⟨b1, b2, b3⟩ := h.run t0 i0 c0 ph0 h0
          refine ⟨List.mem_append_left _ b1, ?_, ?_⟩
          · intro r' hr
            rcases List.mem_append.1 hr with hr | hr
            · exact b2 r' hr
            · simp only [List.mem_singleton, TE.res.injEq] at hr
              obtain ⟨rfl, _⟩ := hr
              exact ht (h.inj t0 t _ c0 ph0 c _ h0 hg)
          · have := border h (.res i (answer c r)) nofun h0
            cases ph0 <;> exact this
        · intro t1 t2 j c1 ph1 c2 ph2 h1 h2
          exact h.inj t1 t2 j c1 ph1 c2 ph2 (hrun _ _ _ _ h1).2 (hrun _ _ _ _ h2).2
        · intro t1 t2 k e h1 h2
          exact h.tak t1 t2 k e (htk _ _ _ h1) (htk _ _ _ h2)
        · intro j c' hj
          simp only [List.mem_append, List.mem_singleton, reduceCtorEq, or_false] at hj
          exact h.nxt j c' hj
        · show s.hist ++ _ = _
          rw [List.filterMap_append, h.his]; rfl

theorem exec_inv {s s' : St K V} {T : List (TE K V)} (h : Inv s T) {as : List (Act K V)} (st : exec s as = some s') : ∃ T', Inv s' T' := by
  induction as generalizing s T with
  | nil => cases st; exact ⟨T, h⟩
  | cons a as ih =>
    simp only [exec, Option.bind_eq_some_iff] at st
    obtain ⟨s1, h1, h2⟩ := st
    obtain ⟨T1, hT1⟩ := act_inv h h1
    exact ih hT1 h2

theorem exec_linear {s : St K V} {as : List (Act K V)} (st : exec St.init as = some s) (pick : Nat → List K) :
    Linearizable (Spec.Map.run GoValue.zero GoValue.isNil fun _ => none) (s.hist.flatMap (unfold GoValue.zero pick)) := by
  obtain ⟨T, h⟩ := exec_inv init_inv st
  rw [h.his]
  exact lin_of_good pick h.good

open Gofer.Spec.SyncMap (points)

/-- Other numbers for the calls. -/
def ren {O R : Type} (f : Nat → Nat) : Ev O R → Ev O R
  | .inv i op => .inv (f i) op
  | .res i r => .res (f i) r

theorem linear_ren {O R : Type} {run : List O → List R} {h : List (Ev O R)} {f g : Nat → Nat} (hf : ∀ i, g (f i) = i) (hl : Linearizable run (h.map (ren f))) : Linearizable run h := by
  obtain ⟨L, h1, h2, h3, h4, h5⟩ := hl
  have hinv : ∀ i op, Ev.inv i op ∈ h.map (ren f) → Ev.inv (g i) op ∈ h ∧ f (g i) = i := by
    intro i op hm
    obtain ⟨x, hx, e⟩ := List.mem_map.1 hm
    cases x with
    | inv j o => cases e; rw [hf]; exact ⟨hx, rfl⟩
    | res j r => cases e
  have hfg : ∀ x ∈ L, f (g x.1) = x.1 := fun x hx => (hinv _ _ (h2 x hx)).2
  refine ⟨L.map fun x => (g x.1, x.2.1, x.2.2), ?_, ?_, ?_, ?_, ?_⟩
  · rw [List.map_map]
    have : ((L.map fun x => x.1).map g).Nodup := by
      refine List.Nodup.map_on ?_ h1
      intro a ha b hb e
      obtain ⟨x, hx, rfl⟩ := List.mem_map.1 ha
      obtain ⟨y, hy, rfl⟩ := List.mem_map.1 hb
      rw [← hfg x hx, ← hfg y hy, e]
    rw [List.map_map] at this
    exact this
  · intro y hy
    obtain ⟨x, hx, rfl⟩ := List.mem_map.1 hy
    exact (hinv _ _ (h2 x hx)).1
  · intro i r hr
    obtain ⟨op, hop⟩ := h3 (f i) r (List.mem_map.2 ⟨_, hr, rfl⟩)
    exact ⟨op, List.mem_map.2 ⟨_, hop, by simp [hf]⟩⟩
  · rw [List.map_map, List.map_map]; exact h4
  · intro a b i r j op ha hb hab x y p q hx hy hp hq
    rw [List.getElem?_map, Option.map_eq_some_iff] at hx hy
    obtain ⟨p', hp', rfl⟩ := hx
    obtain ⟨q', hq', rfl⟩ := hy
    refine h5 a b (f i) r (f j) op (by rw [List.getElem?_map, ha]; rfl) (by rw [List.getElem?_map, hb]; rfl) hab x y p' q' hp' hq' ?_ ?_
    · rw [← hp]; exact (hfg _ (List.mem_of_getElem? hp')).symm
    · rw [← hq]; exact (hfg _ (List.mem_of_getElem? hq')).symm

omit [GoValue V] in
theorem unfold_points (zero : V) (h : List (Ev (Call K V) (Out K V))) : h.flatMap (unfold zero fun _ => []) = (points h).map (ren fun i => Nat.pair i 0) := by
  induction h with
  | nil => rfl
  | cons x h ih =>
    rw [List.flatMap_cons, ih]
    match x with
    | .inv i (.base op) => rfl
    | .inv i .range => rfl
    | .res i (.base r) => rfl
    | .res i (.seq l all) => rfl

theorem exec_points {s : St K V} {as : List (Act K V)} (st : exec St.init as = some s) :
    Linearizable (Spec.Map.run GoValue.zero GoValue.isNil fun _ => none) (points s.hist) := by
  have := exec_linear st fun _ => []
  rw [unfold_points] at this
  exact linear_ren (g := fun n => (Nat.unpair n).1) (by simp) this

theorem exec_nodup {s : St K V} {as : List (Act K V)} (st : exec St.init as = some s) {i : Nat} {l : List (K × V)} {all : Bool} (hr : Ev.res i (.seq l all) ∈ s.hist) :
    (l.map Prod.fst).Nodup := by
  obtain ⟨T, h⟩ := exec_inv init_inv st
  rw [h.his] at hr
  obtain ⟨x, hx, e⟩ := List.mem_filterMap.1 hr
  cases x with
  | inv j c => cases e
  | lin j k n o => cases e
  | res j r =>
    cases e
    have hgood := h.good
    clear h hr
    induction hgood with
    | nil => cases hx
    | @snoc A y _ hy ih =>
      rcases List.mem_append.1 hx with hx | hx
      · exact ih hx
      · simp only [List.mem_singleton] at hx
        subst hx
        obtain ⟨_, c, raw, _, hr, hj⟩ := hy
        match c, raw, hr, hj with
        | .range, .seq l' all', hr, hj =>
          cases hr
          have := hj.1
          rw [List.map_map]
          exact this
        | .base (.put _ _), .prev (some (some _)), hr, _ => cases hr
        | .base (.put _ _), .prev none, hr, _ => cases hr
        | .base (.put _ _), .prev (some none), hr, _ => cases hr
        | .base (.get _), .prev (some (some _)), hr, _ => cases hr
        | .base (.get _), .prev none, hr, _ => cases hr
        | .base (.get _), .prev (some none), hr, _ => cases hr
        | .base (.has _), .prev _, hr, _ => cases hr
        | .base (.del _), .prev _, hr, _ => cases hr

/-- Goroutine `t` can act. -/
def Can (s : St K V) (t : Nat) : Prop := (act s (.step t)).isSome ∨ (act s (.pick t 0 true)).isSome ∨ (act s (.ret t)).isSome

def holds : Ph K (Option V) → Bool
  | .locked => true
  | .unexp _ => true
  | .swapL _ => true
  | .exp _ => true
  | .pub => true
  | .rel _ => true
  | _ => false

/-- Whoever has the mutex is at a place from which it is given back. -/
def Held (s : St K V) : Prop := ∀ t, s.mu = some t → ∃ i c ph, s.g t = .run i c ph ∧ holds ph = true

theorem can_of {s : St K V} {T : List (TE K V)} (h : Inv s T) {t i : Nat} {c : Call K V} {ph : Ph K (Option V)} (hg : s.g t = .run i c ph) (hw : ph ≠ .wait ∨ s.mu = none) : Can s t := by
  obtain ⟨_, _, hp⟩ := h.run t i c ph hg
  have hstep : (phase s t (prim c) ph).isSome → Can s t := fun hs => .inl (by simpa [act, hg] using hs)
  have hpick : (loop s 0 true ph).isSome → Can s t := fun hs => .inr (.inl (by simpa [act, hg] using hs))
  cases ph with
  | start =>
    apply hstep
    cases prim c with
    | load k => simp only [phase]; split <;> rfl
    | del k => simp only [phase]; split <;> rfl
    | swap k w => simp only [phase]; split <;> rfl
    | range => rfl
  | wait =>
    apply hstep
    have hmu : s.mu = none := hw.resolve_left (by simp)
    cases prim c <;> simp [phase, hmu]
  | locked =>
    apply hstep
    cases prim c with
    | load k =>
      simp only [phase]
      split
      · rfl
      · split
        · split <;> rfl
        · rfl
    | del k =>
      simp only [phase]
      split
      · rfl
      · split
        · split <;> rfl
        · rfl
    | swap k w =>
      simp only [phase]
      split
      · rfl
      · split
        · rfl
        · split
          · rfl
          · split <;> rfl
    | range => simp only [phase]; split <;> rfl
  | unexp e =>
    obtain ⟨_, _, k, w, hc, _⟩ := hp
    apply hstep
    rw [hc]; simp only [phase]; split <;> rfl
  | swapL e =>
    obtain ⟨_, _, k, w, hc, _⟩ := hp
    apply hstep
    rw [hc]; rfl
  | exp l =>
    obtain ⟨_, _, k, w, hc, _⟩ := hp
    cases l with
    | nil => apply hstep; rw [hc]; rfl
    | cons x l =>
      apply hpick
      simp only [loop, List.getElem?_cons_zero]
      split <;> rfl
  | pub =>
    obtain ⟨_, _, k, w, hc, _⟩ := hp
    apply hstep
    rw [hc]; rfl
  | rel n => apply hstep; cases prim c <;> rfl
  | fin e b =>
    apply hstep
    cases hc : prim c with
    | load k => rfl
    | del k => simp only [phase]; split <;> rfl
    | swap k w => simp only [phase]; split <;> rfl
    | range => rw [hc] at hp; exact hp.elim
  | iter l seen =>
    cases hc : prim c with
    | range =>
      cases l with
      | nil => apply hstep; rw [hc]; rfl
      | cons x l =>
        apply hpick
        simp only [loop, List.getElem?_cons_zero]
        split <;> rfl
    | load k => rw [hc] at hp; exact hp.elim
    | del k => rw [hc] at hp; exact hp.elim
    | swap k w => rw [hc] at hp; exact hp.elim
  | out r => exact .inr (.inr (by simp [act, hg]))

theorem held_init : Held (St.init : St K V) := nofun

/-- A step of the one who has the mutex keeps it or leaves such a place. -/
theorem phase_held {s s1 : St K V} {T : List (TE K V)} (h : Inv s T) (hh : Held s) {t i : Nat} {c : Call K V} {ph ph' : Ph K (Option V)} (hg : s.g t = .run i c ph)
    (st : phase s t (prim c) ph = some (s1, ph')) : Held (setG s1 t (.run i c ph')) := by
  obtain ⟨_, _, hp⟩ := h.run t i c ph hg
  -- it is enough to know the mutex and the places
  have key : s1.g = s.g → (s1.mu = s.mu ∧ (holds ph = true → holds ph' = true) ∨ s1.mu = some t ∧ holds ph' = true ∨ s1.mu = none) → Held (setG s1 t (.run i c ph')) := by
    intro e1 hcase t0 hm
    change s1.mu = some t0 at hm
    by_cases ht : t0 = t
    · subst ht
      refine ⟨i, c, ph', setG_self _ _ _, ?_⟩
      rcases hcase with ⟨a, b⟩ | ⟨_, b⟩ | a
      · rw [a] at hm
        obtain ⟨i0, c0, ph0, h0, h1⟩ := hh t0 hm
        rw [hg] at h0; cases h0
        exact b h1
      · exact b
      · rw [a] at hm; cases hm
    · rw [setG_ne _ _ ht, e1]
      rcases hcase with ⟨a, _⟩ | ⟨a, _⟩ | a
      · exact hh t0 (a ▸ hm)
      · rw [a] at hm; cases hm; exact absurd rfl ht
      · rw [a] at hm; cases hm
  have mf := miss_frame (K := K) (V := V)
  cases ph with
  | start =>
    cases hc : prim c with
    | load k => rw [hc] at st; simp only [phase] at st; split at st <;> (cases st; exact key rfl (.inl ⟨rfl, nofun⟩))
    | del k => rw [hc] at st; simp only [phase] at st; split at st <;> (cases st; exact key rfl (.inl ⟨rfl, nofun⟩))
    | swap k w => rw [hc] at st; simp only [phase] at st; split at st <;> (cases st; exact key rfl (.inl ⟨rfl, nofun⟩))
    | range => rw [hc] at st; simp only [phase] at st; cases st; exact key rfl (.inl ⟨rfl, nofun⟩)
  | wait =>
    have st' : (if s.mu = none then some ({ s with mu := some t }, Ph.locked) else none) = some (s1, ph') := by
      cases hc : prim c <;> rw [hc] at st <;> exact st
    split at st' <;> [skip; cases st']
    cases st'
    exact key rfl (.inr (.inl ⟨rfl, rfl⟩))
  | locked =>
    cases hc : prim c with
    | load k =>
      rw [hc] at st; simp only [phase] at st
      split at st
      · cases st; exact key rfl (.inl ⟨rfl, fun _ => rfl⟩)
      · split at st
        · split at st <;> (cases st; exact key (mf s).2.1 (.inl ⟨(mf s).1, fun _ => rfl⟩))
        · cases st; exact key rfl (.inl ⟨rfl, fun _ => rfl⟩)
    | del k =>
      rw [hc] at st; simp only [phase] at st
      split at st
      · cases st; exact key rfl (.inl ⟨rfl, fun _ => rfl⟩)
      · split at st
        · split at st <;> (cases st; exact key (mf _).2.1 (.inl ⟨(mf _).1, fun _ => rfl⟩))
        · cases st; exact key rfl (.inl ⟨rfl, fun _ => rfl⟩)
    | swap k w =>
      rw [hc] at st; simp only [phase] at st
      split at st
      · cases st; exact key rfl (.inl ⟨rfl, fun _ => rfl⟩)
      · split at st
        · cases st; exact key rfl (.inl ⟨rfl, fun _ => rfl⟩)
        · split at st
          · cases st; exact key rfl (.inl ⟨rfl, fun _ => rfl⟩)
          · split at st <;> (cases st; exact key rfl (.inl ⟨rfl, fun _ => rfl⟩))
    | range =>
      rw [hc] at st; simp only [phase] at st
      split at st <;> (cases st; exact key rfl (.inl ⟨rfl, fun _ => rfl⟩))
  | unexp e =>
    obtain ⟨_, _, k, w, hc, _⟩ := hp
    rw [hc] at st; simp only [phase] at st
    split at st <;> (cases st; exact key rfl (.inl ⟨rfl, fun _ => rfl⟩))
  | swapL e =>
    obtain ⟨_, _, k, w, hc, _⟩ := hp
    rw [hc] at st; simp only [phase] at st
    cases st; exact key rfl (.inl ⟨rfl, fun _ => rfl⟩)
  | exp l =>
    obtain ⟨_, _, k, w, hc, _⟩ := hp
    rw [hc] at st
    cases l with
    | nil => simp only [phase] at st; cases st; exact key rfl (.inl ⟨rfl, fun _ => rfl⟩)
    | cons x l => simp [phase] at st
  | pub =>
    obtain ⟨_, _, k, w, hc, _⟩ := hp
    rw [hc] at st; simp only [phase] at st
    cases st; exact key rfl (.inl ⟨rfl, fun _ => rfl⟩)
  | rel n =>
    have st' : some ({ s with mu := none }, n) = some (s1, ph') := by
      cases hc : prim c <;> rw [hc] at st <;> exact st
    cases st'
    exact key rfl (.inr (.inr rfl))
  | fin e b =>
    cases hc : prim c with
    | load k => rw [hc] at st; simp only [phase] at st; cases st; exact key rfl (.inl ⟨rfl, nofun⟩)
    | del k => rw [hc] at st; simp only [phase] at st; split at st <;> (cases st; exact key rfl (.inl ⟨rfl, nofun⟩))
    | swap k w => rw [hc] at st; simp only [phase] at st; split at st <;> (cases st; exact key rfl (.inl ⟨rfl, nofun⟩))
    | range => rw [hc] at hp; exact hp.elim
  | iter l seen =>
    cases hc : prim c with
    | range =>
      rw [hc] at st
      cases l with
      | nil => simp only [phase] at st; cases st; exact key rfl (.inl ⟨rfl, nofun⟩)
      | cons x l => simp [phase] at st
    | load k => rw [hc] at hp; exact hp.elim
    | del k => rw [hc] at hp; exact hp.elim
    | swap k w => rw [hc] at hp; exact hp.elim
  | out r =>
    exfalso
    cases hc : prim c <;> rw [hc] at st <;> simp [phase] at st

theorem loop_held {s s1 : St K V} (hh : Held s) {t i : Nat} {c : Call K V} {ph ph' : Ph K (Option V)} (hg : s.g t = .run i c ph) {n : Nat} {go : Bool}
    (st : loop s n go ph = some (s1, ph')) : Held (setG s1 t (.run i c ph')) := by
  have key : s1.g = s.g → s1.mu = s.mu → (holds ph = true → holds ph' = true) → Held (setG s1 t (.run i c ph')) := by
    intro e1 e2 hcase t0 hm
    change s1.mu = some t0 at hm
    rw [e2] at hm
    obtain ⟨i0, c0, ph0, h0, h1⟩ := hh t0 hm
    by_cases ht : t0 = t
    · subst ht
      rw [hg] at h0; cases h0
      exact ⟨i, c, ph', setG_self _ _ _, hcase h1⟩
    · exact ⟨i0, c0, ph0, by rw [setG_ne _ _ ht, e1]; exact h0, h1⟩
  match ph, st with
  | .exp todo, st =>
    simp only [loop] at st
    split at st
    · split at st <;> (cases st; exact key rfl rfl fun _ => rfl)
    · cases st
  | .iter todo seen, st =>
    simp only [loop] at st
    split at st
    · split at st <;> (cases st; exact key rfl rfl nofun)
    · cases st

theorem act_held {s s' : St K V} {T : List (TE K V)} (h : Inv s T) (hh : Held s) {a : Act K V} (st : act s a = some s') : Held s' := by
  cases a with
  | step t =>
    simp only [act] at st
    match hg : s.g t with
    | .idle => rw [hg] at st; cases st
    | .run i c ph =>
      rw [hg] at st
      simp only [Option.map_eq_some_iff] at st
      obtain ⟨⟨s1, ph'⟩, hp, rfl⟩ := st
      exact phase_held h hh hg hp
  | pick t n go =>
    simp only [act] at st
    match hg : s.g t with
    | .idle => rw [hg] at st; cases st
    | .run i c ph =>
      rw [hg] at st
      simp only [Option.map_eq_some_iff] at st
      obtain ⟨⟨s1, ph'⟩, hp, rfl⟩ := st
      exact loop_held hh hg hp
  | call t c =>
    simp only [act] at st
    match hg : s.g t with
    | .run i c ph => rw [hg] at st; cases st
    | .idle =>
      rw [hg] at st
      simp only [Option.some.injEq] at st
      subst st
      intro t0 hm
      obtain ⟨i0, c0, ph0, h0, h1⟩ := hh t0 hm
      have ht : t0 ≠ t := by rintro rfl; rw [hg] at h0; cases h0
      exact ⟨i0, c0, ph0, (setG_ne s _ ht).trans h0, h1⟩
  | ret t =>
    simp only [act] at st
    match hg : s.g t with
    | .idle => rw [hg] at st; cases st
    | .run i c ph =>
      rw [hg] at st
      match ph, hg, st with
      | .out r, hg, st =>
        simp only [Option.some.injEq] at st
        subst st
        intro t0 hm
        obtain ⟨i0, c0, ph0, h0, h1⟩ := hh t0 hm
        have ht : t0 ≠ t := by rintro rfl; rw [hg] at h0; cases h0; cases h1
        exact ⟨i0, c0, ph0, (setG_ne s _ ht).trans h0, h1⟩

theorem exec_held {s s' : St K V} {T : List (TE K V)} (h : Inv s T) (hh : Held s) {as : List (Act K V)} (st : exec s as = some s') : (∃ T', Inv s' T') ∧ Held s' := by
  induction as generalizing s T with
  | nil => cases st; exact ⟨⟨T, h⟩, hh⟩
  | cons a as ih =>
    simp only [exec, Option.bind_eq_some_iff] at st
    obtain ⟨s1, h1, h2⟩ := st
    obtain ⟨T1, hT1⟩ := act_inv h h1
    exact ih hT1 (act_held h hh h1) h2

theorem exec_can {s : St K V} {as : List (Act K V)} (st : exec St.init as = some s) {t : Nat} (ht : s.g t ≠ .idle) : Can s t ∨ ∃ t0, s.mu = some t0 ∧ Can s t0 := by
  obtain ⟨⟨T, h⟩, hh⟩ := exec_held init_inv held_init st
  match hg : s.g t with
  | .idle => exact absurd hg ht
  | .run i c ph =>
    by_cases hw : ph = .wait
    · cases hm : s.mu with
      | none => exact .inl (can_of h hg (.inr hm))
      | some t0 =>
        obtain ⟨i0, c0, ph0, h0, h1⟩ := hh t0 hm
        exact .inr ⟨t0, rfl, can_of h h0 (.inl (by rintro rfl; cases h1))⟩
    · exact .inl (can_of h hg (.inl hw))

end Gofer.SyncMap
