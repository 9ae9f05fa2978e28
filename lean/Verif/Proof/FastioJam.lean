import Verif.Proof.Fastio

/-! # `fastio`: an execution that fills the queue, for every capacity -/
namespace Gofer.Fastio

/-- Two calls of `Write`: the first is done by the fast path, the second has just taken its own data from the queue and found
it empty. -/
def prelude : List Act :=
  [.start false [1], .start false [2], .step 0, .step 1, .step 0, .step 0, .step 0, .step 0, .step 0, .step 0] ++ List.replicate 9 (.step 1)

def callA : Call := { sync := false, arg := [1], data := [1], fast := true, pc := .ret }
def callE (pc : Pc) (bw : List UInt8) : Call := { sync := false, arg := [2], data := [2], pc, off := 1, bw }

/-- A call of `Write` that has returned with its data in the queue. -/
def callB : Call := { sync := false, arg := [3], data := [3], pc := .ret }

def fillSt (k : Nat) : St :=
  { file := [1], offset := 2, cc := 1, wc := k, ioend := false, w := true, r := 0, ch := (List.range k).map (· + 2),
    log := callA :: callE .ioEnd [2] :: List.replicate k callB, order := [0, 1] }

/-- One such call. -/
def fillOne (k : Nat) : List Act := .start false [3] :: List.replicate 6 (.step (k + 2))

theorem prelude_exec (cap : Nat) : exec (cap + 1) (newFile []) prelude = some (fillSt 0) := by
  rfl

theorem get_last (l : List Call) (c : Call) (n : Nat) (h : n = l.length) : (l ++ [c])[n]? = some c := by subst h; simp

theorem set_last (l : List Call) (c d : Call) (n : Nat) (h : n = l.length) : (l ++ [c]).set n d = l ++ [d] := by subst h; simp

theorem fill_one (cap k : Nat) (h : k < cap) : exec cap (fillSt k) (fillOne k) = some (fillSt (k + 1)) := by
  have hl : k + 2 = (callA :: callE .ioEnd [2] :: List.replicate k callB).length := by simp
  have hlog : callA :: callE .ioEnd [2] :: List.replicate (k + 1) callB = (callA :: callE .ioEnd [2] :: List.replicate k callB) ++ [callB] := by
    simp [List.replicate_succ']
  have hchr : (List.range (k + 1)).map (· + 2) = (List.range k).map (· + 2) ++ [k + 2] := by simp [List.range_succ]
  have hlen : ((List.range k).map (· + 2)).length < cap := by simp [h]
  simp only [fillSt, hlog, hchr]
  generalize (callA :: callE .ioEnd [2] :: List.replicate k callB) = L at hl
  generalize (List.range k).map (· + 2) = C at hlen
  have g : ∀ c, (L ++ [c])[k + 2]? = some c := fun c => get_last L c _ hl
  have t : ∀ c d, (L ++ [c]).set (k + 2) d = L ++ [d] := fun c d => set_last L c d _ hl
  have two : ¬ (1 + 1 ≤ 1) := by decide
  simp only [fillOne, List.replicate_succ, List.replicate_zero, exec, act, Option.bind_some, g, step, stepEnter, goto, t, hlen,
    if_true, callB, two, if_false, Bool.false_eq_true]

theorem exec_app {cap : Nat} {s t : St} {as bs : List Act} (h : exec cap s as = some t) : exec cap s (as ++ bs) = exec cap t bs := by
  induction as generalizing s with
  | nil => simp only [exec, Option.some.injEq] at h; subst h; rfl
  | cons a as ih =>
    simp only [exec] at h
    simp only [List.cons_append, exec]
    cases hs : act cap s a with
    | none => simp [hs] at h
    | some u =>
      simp only [hs, Option.bind_some] at h ⊢
      exact ih h

/-- `k` such calls. -/
def fillMany : Nat → List Act
  | 0 => []
  | k + 1 => fillMany k ++ fillOne k

theorem fill_many (cap k : Nat) (h : k ≤ cap) : exec cap (fillSt 0) (fillMany k) = some (fillSt k) := by
  induction k with
  | zero => rfl
  | succ k ih => rw [fillMany, exec_app (ih (by omega))]; exact fill_one cap k (by omega)

/-- One more call, that blocks; and the second call returns. -/
def finale (cap : Nat) : List Act := [.start false [4], .step (cap + 2), .step (cap + 2)] ++ List.replicate 5 (.step 1)

def callZ : Call := { sync := false, arg := [4], data := [4], pc := .send }

def jamSt (cap : Nat) : St :=
  { file := [1, 2], offset := 2, cc := 1, wc := cap + 1, ioend := true, w := false, r := 0, ch := (List.range cap).map (· + 2),
    log := callA :: callE .ret [] :: (List.replicate cap callB ++ [callZ]), order := [0, 1] }

theorem finale_exec (cap : Nat) : exec cap (fillSt cap) (finale cap) = some (jamSt cap) := by
  simp only [fillSt, jamSt]
  have hl : cap + 2 = (callA :: callE .ioEnd [2] :: List.replicate cap callB).length := by simp
  have g : ∀ c, (callA :: callE .ioEnd [2] :: List.replicate cap callB ++ [c])[cap + 2]? = some c := fun c => get_last _ c _ hl
  have t : ∀ c d, (callA :: callE .ioEnd [2] :: List.replicate cap callB ++ [c]).set (cap + 2) d = callA :: callE .ioEnd [2] :: List.replicate cap callB ++ [d] :=
    fun c d => set_last _ c d _ hl
  generalize (List.range cap).map (· + 2) = C
  simp only [finale, List.replicate_succ, List.replicate_zero, List.cons_append, List.nil_append, exec, act, Option.bind_some] at g t ⊢
  have two : ¬ (1 + 1 ≤ 1) := by decide
  simp only [g, t, step, stepEnter, goto, Option.bind_some, two, if_false, Bool.false_eq_true]
  rfl

def jamRun (cap : Nat) : List Act := prelude ++ (fillMany cap ++ finale cap)

theorem jam_run (cap : Nat) (h : 0 < cap) : exec cap (newFile []) (jamRun cap) = some (jamSt cap) := by
  obtain ⟨c, rfl⟩ := Nat.exists_eq_succ_of_ne_zero (Nat.ne_of_gt h)
  rw [jamRun, exec_app (prelude_exec c), exec_app (fill_many (c + 1) (c + 1) (Nat.le_refl _))]
  exact finale_exec (c + 1)

theorem jam_clean (cap : Nat) : ∀ a ∈ jamRun cap, Clean a := by
  have h1 : ∀ k, ∀ a ∈ fillMany k, Clean a := by
    intro k
    induction k with
    | zero => simp [fillMany]
    | succ k ih =>
      intro a ha
      simp only [fillMany, List.mem_append] at ha
      rcases ha with ha | ha
      · exact ih a ha
      · simp [fillOne] at ha
        rcases ha with rfl | rfl <;> trivial
  intro a ha
  simp only [jamRun, List.mem_append] at ha
  rcases ha with ha | ha | ha
  · simp [prelude] at ha
    rcases ha with rfl | rfl | rfl | rfl | rfl | rfl <;> trivial
  · exact h1 cap a ha
  · simp [finale] at ha
    rcases ha with rfl | rfl | rfl <;> trivial

theorem jam_jam (cap : Nat) : Jam cap (jamSt cap) := by
  refine ⟨by simp [jamSt], by simp [jamSt], fun i c hc => ?_⟩
  have := List.mem_of_getElem? hc
  simp only [jamSt, List.mem_cons, List.mem_append, List.mem_replicate, List.not_mem_nil, or_false] at this
  rcases this with rfl | rfl | ⟨_, rfl⟩ | rfl
  · exact .inr (.inr (.inr rfl))
  · exact .inr (.inr (.inr rfl))
  · exact .inr (.inr (.inr rfl))
  · exact .inr (.inr (.inl rfl))

end Gofer.Fastio
