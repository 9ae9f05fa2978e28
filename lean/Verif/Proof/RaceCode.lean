import Verif.Proof.RaceFree
import Verif.Model.Race
/-! # A static check of the code, and its soundness -/
namespace Gofer.Race

variable {M X : Type} [DecidableEq M]

/-- No cell is mentioned by a unit value. -/
def noMent : Unit → X → Prop := fun _ _ => False

/-- The accesses of the code respect `kind` when the mutex `h` is held. -/
def Code.ok (kind : X → Kind M) : Option (M × Bool) → Code M X → Bool
  | _, .skip => true
  | h, .rd x =>
    match kind x with
    | .guarded m => h.map Prod.fst == some m
    | .atomic => false
    | .cell => false
    | .frozen => true
    | .free => true
  | h, .wr x =>
    match kind x with
    | .guarded m => h == some (m, true)
    | .atomic => false
    | .cell => false
    | .frozen => false
    | .free => true
  | h, .aload x =>
    match kind x with
    | .guarded m => h.map Prod.fst == some m
    | .atomic => true
    | .cell => false
    | .frozen => true
    | .free => true
  | h, .armw x =>
    match kind x with
    | .guarded m => h == some (m, true)
    | .atomic => true
    | .cell => false
    | .frozen => false
    | .free => true
  | _, .chan _ => true
  | h, .seq a b => a.ok kind h && b.ok kind h
  | h, .alt a b => a.ok kind h && b.ok kind h
  | h, .star a => a.ok kind h
  | h, .locked m w c => h == none && c.ok kind (some (m, w))

/-- The local state when exactly `h` is held. -/
def HeldIs (s : LSt M X) (h : Option (M × Bool)) : Prop :=
  (∀ m, s.hw m = decide (h = some (m, true))) ∧ ∀ m, s.hr m = if h = some (m, false) then 1 else 0

omit [DecidableEq M] in
theorem prefix_app {A : Type} {p a b : List A} (h : p <+: a ++ b) : p <+: a ∨ ∃ q, q <+: b ∧ p = a ++ q := by
  obtain ⟨r, h⟩ := h
  rcases List.append_eq_append_iff.1 h with ⟨c, rfl, _⟩ | ⟨c, rfl, h2⟩
  · exact .inl ⟨c, rfl⟩
  · exact .inr ⟨c, ⟨r, h2.symm⟩, rfl⟩

omit [DecidableEq M] in
theorem prefix_one {A : Type} {p : List A} {a : A} (h : p <+: [a]) : p = [] ∨ p = [a] := by
  rcases p with _ | ⟨b, p⟩
  · exact .inl rfl
  · right
    obtain ⟨r, h⟩ := h
    simp at h
    simp [h]

/-- One action that leaves the mutexes alone. -/
theorem one_sound {kind : X → Kind M} {a : Act M X Unit} {h : Option (M × Bool)} {s : LSt M X} (hs : HeldIs s h)
    (ha : allowed kind noMent s a) (hn : (next kind noMent s a).hw = s.hw ∧ (next kind noMent s a).hr = s.hr) :
    (Disc kind noMent s [a] ∧ ∀ p, p <+: [a] → h ≠ none → HeldIs (after kind noMent s p) h) ∧
      HeldIs (after kind noMent s [a]) h := by
  have h1 : HeldIs (after kind noMent s [a]) h := by
    simp only [after, List.foldl_cons, List.foldl_nil, HeldIs, hn.1, hn.2]; exact hs
  refine ⟨⟨⟨ha, trivial⟩, fun p hp _ => ?_⟩, h1⟩
  rcases prefix_one hp with rfl | rfl
  · exact hs
  · exact h1

theorem held_w {s : LSt M X} {h : Option (M × Bool)} {m : M} (hs : HeldIs s h) (e : h = some (m, true)) : s.hw m = true := by
  rw [hs.1]; simpa using e

theorem held_any {s : LSt M X} {h : Option (M × Bool)} {m : M} (hs : HeldIs s h) (e : h.map Prod.fst = some m) :
    s.hw m = true ∨ 0 < s.hr m := by
  rcases h with _ | ⟨m', w⟩
  · simp at e
  · simp only [Option.map_some, Option.some.injEq] at e
    subst e
    cases w
    · right; rw [hs.2]; simp
    · left; rw [hs.1]; simp

theorem ok_sound {kind : X → Kind M} {c : Code M X} {l : List (Act M X Unit)} (r : c.Runs l) :
    ∀ {h : Option (M × Bool)}, c.ok kind h = true → ∀ s : LSt M X, HeldIs s h →
      (Disc kind noMent s l ∧ ∀ p, p <+: l → h ≠ none → HeldIs (after kind noMent s p) h) ∧ HeldIs (after kind noMent s l) h := by
  induction r with
  | skip =>
    intro h _ s hs
    refine ⟨⟨trivial, fun p hp _ => ?_⟩, hs⟩
    obtain rfl : p = [] := by simpa using hp
    exact hs
  | rd x =>
    intro h ok s hs
    refine one_sound hs ?_ ⟨rfl, rfl⟩
    simp only [Code.ok] at ok
    refine ⟨fun m hm => ?_, fun hm => ?_, fun hm => ?_⟩
    · rw [hm] at ok; exact held_any hs (by simpa using ok)
    · rw [hm] at ok; cases ok
    · rw [hm] at ok; cases ok
  | wr x =>
    intro h ok s hs
    refine one_sound hs ?_ ⟨rfl, rfl⟩
    simp only [Code.ok] at ok
    refine ⟨⟨fun m hm => ?_, fun hm => ?_, fun hm => ?_, fun hm => ?_⟩, fun c hc => hc.elim⟩
    · rw [hm] at ok; exact held_w hs (by simpa using ok)
    · rw [hm] at ok; cases ok
    · rfl
    · rw [hm] at ok; cases ok
  | aload x =>
    intro h ok s hs
    refine one_sound hs ?_ ⟨rfl, rfl⟩
    simp only [Code.ok] at ok
    refine ⟨fun m hm => ?_, fun hm => ?_, fun hm => ?_⟩
    · rw [hm] at ok; exact held_any hs (by simpa using ok)
    · rfl
    · rw [hm] at ok; cases ok
  | armw x =>
    intro h ok s hs
    refine one_sound hs ?_ ⟨rfl, rfl⟩
    simp only [Code.ok] at ok
    refine ⟨⟨fun m hm => ?_, fun hm => ?_, fun hm => ?_, fun hm => ?_⟩, fun c hc => hc.elim⟩
    · rw [hm] at ok; exact held_w hs (by simpa using ok)
    · rfl
    · rw [hm] at ok; cases ok
    · rw [hm] at ok; cases ok
  | chan x =>
    intro h ok s hs
    exact one_sound hs trivial ⟨rfl, rfl⟩
  | seq _ _ ih ih' =>
    intro h ok s hs
    simp only [Code.ok, Bool.and_eq_true] at ok
    obtain ⟨⟨d1, p1⟩, e1⟩ := ih ok.1 s hs
    obtain ⟨⟨d2, p2⟩, e2⟩ := ih' ok.2 _ e1
    refine ⟨⟨disc_append.2 ⟨d1, d2⟩, fun p hp hn => ?_⟩, by rw [after_append]; exact e2⟩
    rcases prefix_app hp with hp | ⟨q, hq, rfl⟩
    · exact p1 p hp hn
    · rw [after_append]; exact p2 q hq hn
  | altL _ ih =>
    intro h ok s hs
    simp only [Code.ok, Bool.and_eq_true] at ok
    exact ih ok.1 s hs
  | altR _ ih =>
    intro h ok s hs
    simp only [Code.ok, Bool.and_eq_true] at ok
    exact ih ok.2 s hs
  | starNil =>
    intro h _ s hs
    refine ⟨⟨trivial, fun p hp _ => ?_⟩, hs⟩
    obtain rfl : p = [] := by simpa using hp
    exact hs
  | starCons _ _ ih ih' =>
    intro h ok s hs
    obtain ⟨⟨d1, p1⟩, e1⟩ := ih (by simpa [Code.ok] using ok) s hs
    obtain ⟨⟨d2, p2⟩, e2⟩ := ih' ok _ e1
    refine ⟨⟨disc_append.2 ⟨d1, d2⟩, fun p hp hn => ?_⟩, by rw [after_append]; exact e2⟩
    rcases prefix_app hp with hp | ⟨q, hq, rfl⟩
    · exact p1 p hp hn
    · rw [after_append]; exact p2 q hq hn
  | @lockedW m c l p _ hp ih =>
    intro h ok s hs
    simp only [Code.ok, Bool.and_eq_true, beq_iff_eq] at ok
    obtain ⟨rfl, ok⟩ := ok
    have h1 : HeldIs (next kind noMent s (.lock m)) (some (m, true)) := by
      refine ⟨fun m' => ?_, fun m' => ?_⟩
      · simp only [next, upd, hs.1]; by_cases e : m' = m
        · simp [e]
        · have e' : ¬ m = m' := fun h => e h.symm
          simp [e, e']
      · simp only [next, hs.2]; simp
    obtain ⟨⟨d1, p1⟩, _⟩ := ih ok _ h1
    have h2 := p1 p hp (by simp)
    refine ⟨⟨?_, fun _ _ hn => absurd rfl hn⟩, ?_⟩
    · refine ⟨trivial, disc_append.2 ⟨disc_prefix hp d1, trivial, trivial⟩⟩
    · have e : after kind noMent s (.lock m :: p ++ [.unlock m]) =
          next kind noMent (after kind noMent (next kind noMent s (.lock m)) p) (.unlock m) := by simp [after]
      rw [e]
      generalize after kind noMent _ p = s2 at h2 ⊢
      refine ⟨fun m' => ?_, fun m' => ?_⟩
      · simp only [next, upd, h2.1]; by_cases e : m' = m
        · simp [e]
        · have e' : ¬ m = m' := fun h => e h.symm
          simp [e, e']
      · simp only [next, h2.2]; simp
  | @lockedR m c l p _ hp ih =>
    intro h ok s hs
    simp only [Code.ok, Bool.and_eq_true, beq_iff_eq] at ok
    obtain ⟨rfl, ok⟩ := ok
    have h1 : HeldIs (next kind noMent s (.rlock m)) (some (m, false)) := by
      refine ⟨fun m' => ?_, fun m' => ?_⟩
      · simp only [next, hs.1]; simp
      · simp only [next, upd, hs.2]; by_cases e : m' = m
        · simp [e]
        · have e' : ¬ m = m' := fun h => e h.symm
          simp [e, e']
    obtain ⟨⟨d1, p1⟩, _⟩ := ih ok _ h1
    have h2 := p1 p hp (by simp)
    refine ⟨⟨?_, fun _ _ hn => absurd rfl hn⟩, ?_⟩
    · refine ⟨trivial, disc_append.2 ⟨disc_prefix hp d1, trivial, trivial⟩⟩
    · have e : after kind noMent s (.rlock m :: p ++ [.runlock m]) =
          next kind noMent (after kind noMent (next kind noMent s (.rlock m)) p) (.runlock m) := by simp [after]
      rw [e]
      generalize after kind noMent _ p = s2 at h2 ⊢
      refine ⟨fun m' => ?_, fun m' => ?_⟩
      · simp only [next, h2.1]; simp
      · simp only [next, upd, h2.2]; by_cases e : m' = m
        · simp [e]
        · have e' : ¬ m = m' := fun h => e h.symm
          simp [e, e']

theorem all_ok {kind : X → Kind M} {h : Option (M × Bool)} {l : List (Code M X)} :
    (Code.all l).ok kind h = l.all (fun c => c.ok kind h) := by
  induction l with
  | nil => rfl
  | cons a l ih => simp [Code.all, Code.ok, ih]

/-- Code that passes the check has no race on a protected location. -/
theorem no_race_code [DecidableEq X] {kind : X → Kind M} {codes : Code M X → Prop} (hok : ∀ c, codes c → c.ok kind none = true)
    {tr : Trace M X Unit} {s : St M X Unit} (he : exec (St.init fun _ => ()) tr = some s)
    (hf : Follows (fun l => ∃ c, codes c ∧ c.Runs l) tr) {x : X} (nf : kind x ≠ .free) (nc : ∀ x, kind x ≠ .cell) : ¬ RaceOn tr x := by
  obtain ⟨S, R⟩ := exec_run he
  have h0 : HeldIs (LSt.init : LSt M X) none := ⟨fun _ => by simp [LSt.init], fun _ => by simp [LSt.init]⟩
  refine no_race (kind := kind) (ment := noMent) (S := S) ⟨R, fun _ => rfl, fun _ => rfl, fun _ _ h => h, fun t => ?_, fun x h => absurd h (nc x)⟩ nf
  obtain ⟨calls, hc, hp⟩ := hf t
  refine disc_prefix hp ?_
  have : ∀ (calls : List (List (Act M X Unit))) (s : LSt M X), HeldIs s none →
      (∀ c ∈ calls, ∃ k, codes k ∧ k.Runs c) → Disc kind noMent s calls.flatten := by
    intro calls
    induction calls with
    | nil => intro _ _ _; trivial
    | cons c calls ih =>
      intro s hs hc
      obtain ⟨k, hk, hr⟩ := hc c (by simp)
      obtain ⟨⟨d, _⟩, e⟩ := ok_sound hr (hok k hk) s hs
      rw [List.flatten_cons]
      exact disc_append.2 ⟨d, ih _ e fun c' h' => hc c' (by simp [h'])⟩
  exact this calls _ h0 hc

theorem freeOn {Op : Type} [DecidableEq X] {code : Op → Code M X} {ops : Op → Prop} (kind : X → Kind M) (nc : ∀ x, kind x ≠ .cell)
    (hok : ∀ op, ops op → (code op).ok kind none = true) {x : X} (nf : kind x ≠ .free) : FreeOn code ops x := by
  intro tr s he _ hf
  refine no_race_code (kind := kind) (codes := fun c => ∃ op, ops op ∧ c = code op) ?_ he ?_ nf nc
  · rintro c ⟨op, h, rfl⟩; exact hok op h
  · intro t
    obtain ⟨calls, h1, h2⟩ := hf t
    refine ⟨calls, fun c hc => ?_, h2⟩
    obtain ⟨op, h3, h4⟩ := h1 c hc
    exact ⟨_, ⟨op, h3, rfl⟩, h4⟩

/-- The actions of one way through the code: the choices say which branch is taken and whether a loop goes on. -/
def Code.path : Nat → Code M X → List Bool → Option (List (Act M X Unit) × List Bool)
  | 0, _, _ => none
  | _ + 1, .skip, ch => some ([], ch)
  | _ + 1, .rd x, ch => some ([.rd x ()], ch)
  | _ + 1, .wr x, ch => some ([.wr x ()], ch)
  | _ + 1, .aload x, ch => some ([.aload x ()], ch)
  | _ + 1, .armw x, ch => some ([.armw x () ()], ch)
  | _ + 1, .chan x, ch => some ([.chan x], ch)
  | n + 1, .seq a b, ch => (path n a ch).bind fun r => (path n b r.2).map fun r' => (r.1 ++ r'.1, r'.2)
  | n + 1, .alt a _, true :: ch => path n a ch
  | n + 1, .alt _ b, false :: ch => path n b ch
  | _ + 1, .alt _ _, [] => none
  | n + 1, .star a, true :: ch => (path n a ch).bind fun r => (path n (.star a) r.2).map fun r' => (r.1 ++ r'.1, r'.2)
  | _ + 1, .star _, false :: ch => some ([], ch)
  | _ + 1, .star _, [] => none
  | n + 1, .locked m true c, ch => (path n c ch).map fun r => (.lock m :: r.1 ++ [.unlock m], r.2)
  | n + 1, .locked m false c, ch => (path n c ch).map fun r => (.rlock m :: r.1 ++ [.runlock m], r.2)

omit [DecidableEq M] in
theorem path_runs : ∀ {n : Nat} {c : Code M X} {ch : List Bool} {r : List (Act M X Unit) × List Bool}, c.path n ch = some r → c.Runs r.1 := by
  intro n
  induction n with
  | zero => intro c ch r h; simp [Code.path] at h
  | succ n ih =>
    intro c ch r h
    cases c with
    | skip => simp only [Code.path, Option.some.injEq] at h; subst h; exact .skip
    | rd x => simp only [Code.path, Option.some.injEq] at h; subst h; exact .rd x
    | wr x => simp only [Code.path, Option.some.injEq] at h; subst h; exact .wr x
    | aload x => simp only [Code.path, Option.some.injEq] at h; subst h; exact .aload x
    | armw x => simp only [Code.path, Option.some.injEq] at h; subst h; exact .armw x
    | chan x => simp only [Code.path, Option.some.injEq] at h; subst h; exact .chan x
    | seq a b =>
      simp only [Code.path, Option.bind_eq_some_iff, Option.map_eq_some_iff] at h
      obtain ⟨r1, h1, r2, h2, rfl⟩ := h
      exact .seq (ih h1) (ih h2)
    | alt a b =>
      rcases ch with _ | ⟨_ | _, ch⟩ <;> simp only [Code.path, reduceCtorEq] at h
      · exact .altR (ih h)
      · exact .altL (ih h)
    | star a =>
      rcases ch with _ | ⟨_ | _, ch⟩ <;>
        simp only [Code.path, reduceCtorEq, Option.some.injEq, Option.bind_eq_some_iff, Option.map_eq_some_iff] at h
      · subst h; exact .starNil
      · obtain ⟨r1, h1, r2, h2, rfl⟩ := h
        exact .starCons (ih h1) (ih h2)
    | locked m w c =>
      cases w <;> simp only [Code.path, Option.map_eq_some_iff] at h <;> obtain ⟨r1, h1, rfl⟩ := h
      · exact .lockedR (ih h1) (List.prefix_refl _)
      · exact .lockedW (ih h1) (List.prefix_refl _)

/-- Calls given by the way they go. -/
def script {Op : Type} (code : Op → Code M X) (l : List (Op × List Bool)) : List (List (Act M X Unit)) :=
  l.map fun p => (((code p.1).path 100 p.2).map Prod.fst).getD []

omit [DecidableEq M] in
theorem follows_of {Op : Type} {code : Op → Code M X} {ops : Op → Prop} {tr : Trace M X Unit} (who : List (List (Op × List Bool)))
    (h1 : ∀ l ∈ who, ∀ p ∈ l, ops p.1 ∧ ((code p.1).path 100 p.2).isSome = true)
    (h2 : ∀ t < who.length, proj t tr <+: (script code (who.getD t [])).flatten) (h3 : tr.all (fun e => e.1 < who.length) = true) :
    Follows (Calls code ops) tr := by
  intro t
  by_cases ht : t < who.length
  · refine ⟨_, ?_, h2 t ht⟩
    intro c hc
    obtain ⟨p, hp, rfl⟩ := List.mem_map.1 hc
    have hm : who.getD t [] ∈ who := by
      rw [List.getD_eq_getElem?_getD, List.getElem?_eq_getElem ht]; exact List.getElem_mem ht
    obtain ⟨ho, hs⟩ := h1 _ hm p hp
    obtain ⟨r, hr⟩ := Option.isSome_iff_exists.1 hs
    exact ⟨p.1, ho, by rw [hr]; exact path_runs hr⟩
  · refine ⟨[], by simp, ?_⟩
    have : proj t tr = [] := by
      simp only [proj, List.map_eq_nil_iff, List.filter_eq_nil_iff]
      intro e he
      have := List.all_eq_true.1 h3 e he
      simp only [decide_eq_true_eq] at this
      simp only [beq_iff_eq]; omega
    simp [this]

omit [DecidableEq M] in
/-- A plain access that is the last thing its goroutine did happens before nothing. -/
theorem race_of_last {V : Type} {tr : Trace M X V} {x : X} {i j t u : Nat} {a b : Act M X V} {wa wb tb : Bool} (hij : i < j)
    (hi : tr[i]? = some (t, a)) (hj : tr[j]? = some (u, b)) (ne : t ≠ u) (ea : a.access = some (x, wa, false))
    (eb : b.access = some (x, wb, tb)) (hwr : wa = true ∨ wb = true)
    (last : (tr.drop (i + 1)).all (fun c => c.1 != t) = true) : RaceOn tr x := by
  refine ⟨i, j, hij, _, _, hi, hj, ne, ⟨wa, false, wb, tb, ea, eb, hwr, by simp⟩, fun h => ?_⟩
  have no : ∀ k, ¬ edge tr i k := by
    rintro k ⟨hik, a', c, h1, h2, h3⟩
    rw [hi] at h1; cases h1
    have hc : c ∈ tr.drop (i + 1) := by
      rw [List.mem_iff_getElem?]
      exact ⟨k - (i + 1), by rw [List.getElem?_drop]; rwa [show i + 1 + (k - (i + 1)) = k by omega]⟩
    have hne := List.all_eq_true.1 last c hc
    rcases h3 with h3 | h3 | ⟨y, ⟨o, n, h3⟩, _⟩
    · simp [← h3] at hne
    · cases a <;> simp_all [syncs, Act.access]
    · simp only at h3; subst h3; simp [Act.access] at ea
  cases Relation.TransGen.head'_iff.1 h with
  | intro c hc => exact no c hc.1

end Gofer.Race
