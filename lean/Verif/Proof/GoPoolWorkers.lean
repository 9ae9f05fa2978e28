import Verif.Proof.GoPool
import Mathlib.Data.List.Nodup

/-! # `GoPool`: workers, as long as `Close` and `TurnOff` are not called -/
namespace Gofer.GoPool
open Gofer.Count

def dcharge : DPc → Bool
  | .newId _ | .idChk _ | .incId _ | .wait _ | .add _ _ => true
  | _ => false
def charged (k : Worker) : Bool :=
  k.buf.isSome || match k.pc with | .run _ | .put1 _ => true | _ => false
/-- Beyond the `minlimit` workers that are kept, and not yet done. -/
def extra (m : Nat) (k : Worker) : Bool :=
  decide (m < k.id) && match k.pc with | .new | .sel | .run _ | .put1 _ => true | _ => false
def isNewId : DPc → Bool
  | .newId _ => true
  | _ => false

/-- Workers, as long as `Close` and `TurnOff` are not called. -/
structure W (m M : Nat) (ws : List Worker) (pool : List Nat) (id : Nat) (count : Int) (d : DPc) : Prop where
  ids : ∀ (w : Nat) (k : Worker), ws[w]? = some k → 1 ≤ k.id ∧ k.id ≤ id
  inj : ∀ (w w' : Nat) (k k' : Worker), ws[w]? = some k → ws[w']? = some k' → k.id = k'.id → w = w'
  all : ∀ n, 1 ≤ n → n ≤ m → n ≤ id → ∃ (w : Nat) (k : Worker), ws[w]? = some k ∧ k.id = n
  pnd : pool.Nodup
  pl : ∀ w ∈ pool, ∃ k, ws[w]? = some k ∧ k.id ≤ m ∧ k.pc = .sel ∧ k.buf = none
  pa : ∀ w f, d = .add f w → w ∉ pool
  pi : ∀ (w : Nat) (k : Worker), ws[w]? = some k → k.id ≤ m → k.pc = .sel → k.buf = none → w ∈ pool ∨ ∃ f, d = .add f w
  ad : ∀ f w, d = .add f w → ∃ k, ws[w]? = some k ∧ k.buf = none ∧ (k.pc = .new ∨ (k.pc = .sel ∧ k.id ≤ m))
  on : ∀ w, d = .once w → ∃ k, ws[w]? = some k ∧ (k.pc = .new → k.buf ≠ none)
  nw : ∀ (w : Nat) (k : Worker), ws[w]? = some k → k.pc = .new → (∃ f, d = .add f w) ∨ d = .once w
  bf : ∀ (w : Nat) (k : Worker) (f : Nat), ws[w]? = some k → k.buf = some f → k.pc = .new ∨ k.pc = .sel
  ts : ∀ (w : Nat) (k : Worker), ws[w]? = some k → k.pc = .sel → m < k.id → k.buf ≠ none
  dd : ∀ (w : Nat) (k : Worker), ws[w]? = some k → k.pc = .dead → m < k.id
  p3 : ∀ (w : Nat) (k : Worker) (b : Bool), ws[w]? = some k → k.pc = .put3 b → k.id ≤ m
  wt : ∀ f, d = .wait f → m < id
  ct : count = (ws.countP charged : Int) + (dcharge d).toNat
  tm : ws.countP (extra m) + (isNewId d).toNat ≤ M
  mm : M ≤ m → isNewId d = false ∧ ∀ (w : Nat) (k : Worker), ws[w]? = some k → k.id ≤ m


section
variable {m M : Nat} {ws : List Worker} {pool : List Nat} {id : Nat} {count : Int} {d : DPc}

/-- A step of a worker. -/
theorem W.work (h : W m M ws pool id count d) {w : Nat} {k k' : Worker} {pool' : List Nat} {count' : Int} (hk : ws[w]? = some k) (hid : k'.id = k.id)
    (hn : k.pc ≠ .new) (hn' : k'.pc ≠ .new) (hadd : ∀ f, d ≠ .add f w) (hb : k'.buf = none) (hts : k'.pc = .sel → k'.id ≤ m)
    (hdd : k'.pc = .dead → m < k'.id) (hp3 : ∀ b, k'.pc = .put3 b → k'.id ≤ m) (hnp : w ∉ pool)
    (hpool : (pool' = pool ∧ k'.pc ≠ .sel) ∨ (pool' = pool ++ [w] ∧ k'.pc = .sel))
    (b b' : Bool) (hc : charged k = b) (hc' : charged k' = b') (hct : count' + b.toNat = count + b'.toNat) (hex : extra m k' = true → extra m k = true) :
    W m M (ws.set w k') pool' id count' d := by
  have e1 := cnt_set (p := charged) (c' := k') hk
  have e2 := cnt_set (p := extra m) (c' := k') hk
  subst hc hc'
  obtain ⟨ids, inj, all, pnd, pl, pa, pi, ad, on, nw, bf, ts, dd, p3, wt, ct, tm, mm⟩ := h
  have hsub : ∀ j, j ∈ pool → j ∈ pool' := by rcases hpool with ⟨rfl, _⟩ | ⟨rfl, _⟩ <;> intro j hj <;> simp [hj]
  refine ⟨?_, ?_, ?_, ?_, ?_, ?_, ?_, ?_, ?_, ?_, ?_, ?_, ?_, ?_, wt, ?_, ?_, ?_⟩
  · intro j k1 hj
    replace hj := get_set_cases hj
    rcases hj with ⟨rfl, rfl⟩ | ⟨_, hj⟩
    · rw [hid]; exact ids j k hk
    · exact ids j k1 hj
  · intro j j' k1 k2 hj hj' he
    replace hj := get_set_cases hj
    replace hj' := get_set_cases hj'
    rcases hj with ⟨rfl, rfl⟩ | ⟨_, hj⟩ <;> rcases hj' with ⟨rfl, rfl⟩ | ⟨_, hj'⟩
    · rfl
    · exact inj _ _ _ _ hk hj' (hid ▸ he)
    · exact inj _ _ _ _ hj hk (hid ▸ he)
    · exact inj _ _ _ _ hj hj' he
  · intro n h1 h2 h3
    obtain ⟨j, k1, hj, he⟩ := all n h1 h2 h3
    by_cases e : j = w
    · subst e; rw [hk] at hj; cases hj
      exact ⟨j, k', get_set_self hk, hid.trans he⟩
    · exact ⟨j, k1, by rw [get_set_ne e]; exact hj, he⟩
  · rcases hpool with ⟨rfl, _⟩ | ⟨rfl, _⟩
    · exact pnd
    · rw [List.nodup_append]
      refine ⟨pnd, List.nodup_singleton _, ?_⟩
      rintro a ha b hb rfl
      simp at hb; subst hb; exact hnp ha
  · intro j hj
    have old : j ∈ pool → ∃ k, (ws.set w k')[j]? = some k ∧ k.id ≤ m ∧ k.pc = .sel ∧ k.buf = none := by
      intro hj
      obtain ⟨k1, g1, g2⟩ := pl j hj
      have : j ≠ w := by rintro rfl; exact hnp hj
      exact ⟨k1, by rw [get_set_ne this]; exact g1, g2⟩
    rcases hpool with ⟨rfl, _⟩ | ⟨rfl, hs⟩
    · exact old hj
    · rcases List.mem_append.1 hj with hj | hj
      · exact old hj
      · simp at hj; subst hj
        exact ⟨k', get_set_self hk, hts hs, hs, hb⟩
  · intro j f hf
    rcases hpool with ⟨rfl, _⟩ | ⟨rfl, _⟩
    · exact pa j f hf
    · have := pa j f hf
      have e : j ≠ w := by rintro rfl; exact hadd f hf
      simp [this, e]
  · intro j k1 hj h1 h2 h3
    replace hj := get_set_cases hj
    rcases hj with ⟨rfl, rfl⟩ | ⟨_, hj⟩
    · rcases hpool with ⟨_, hs⟩ | ⟨rfl, _⟩
      · exact absurd h2 hs
      · exact .inl (by simp)
    · rcases pi j k1 hj h1 h2 h3 with g | g
      · exact .inl (hsub j g)
      · exact .inr g
  · intro f j hf
    obtain ⟨k1, g1, g2⟩ := ad f j hf
    have e : j ≠ w := by rintro rfl; exact hadd f hf
    exact ⟨k1, by rw [get_set_ne e]; exact g1, g2⟩
  · intro j hj
    obtain ⟨k1, g1, g2⟩ := on j hj
    by_cases e : j = w
    · subst e; exact ⟨k', get_set_self hk, fun e => absurd e hn'⟩
    · exact ⟨k1, by rw [get_set_ne e]; exact g1, g2⟩
  · intro j k1 hj hp
    replace hj := get_set_cases hj
    rcases hj with ⟨rfl, rfl⟩ | ⟨_, hj⟩
    · exact absurd hp hn'
    · exact nw j k1 hj hp
  · intro j k1 f hj hp
    replace hj := get_set_cases hj
    rcases hj with ⟨rfl, rfl⟩ | ⟨_, hj⟩
    · rw [hb] at hp; cases hp
    · exact bf j k1 f hj hp
  · intro j k1 hj hp hm
    replace hj := get_set_cases hj
    rcases hj with ⟨rfl, rfl⟩ | ⟨_, hj⟩
    · have := hts hp; omega
    · exact ts j k1 hj hp hm
  · intro j k1 hj hp
    replace hj := get_set_cases hj
    rcases hj with ⟨rfl, rfl⟩ | ⟨_, hj⟩
    · exact hdd hp
    · exact dd j k1 hj hp
  · intro j k1 b hj hp
    replace hj := get_set_cases hj
    rcases hj with ⟨rfl, rfl⟩ | ⟨_, hj⟩
    · exact hp3 b hp
    · exact p3 j k1 b hj hp
  · omega
  · have : (extra m k').toNat ≤ (extra m k).toNat := by
      cases h1 : extra m k'
      · simp
      · rw [hex h1]; simp
    omega
  · intro hM
    obtain ⟨g1, g2⟩ := mm hM
    refine ⟨g1, fun j k1 hj => ?_⟩
    replace hj := get_set_cases hj
    rcases hj with ⟨rfl, rfl⟩ | ⟨_, hj⟩
    · rw [hid]; exact g2 j k hk
    · exact g2 j k1 hj

/-- Steps of the dispatcher that do not concern workers. -/
def plain : DPc → Bool
  | .idle | .range | .chk _ | .cnt _ | .dec | .last | .unlock => true
  | _ => false

theorem W.move (h : W m M ws pool id count d) {d' : DPc} {count' : Int} {id' : Nat} (hd : plain d = true ∨ (∃ f, d = .idChk f) ∨ ∃ f, d = .incId f)
    (h1 : ∀ f w, d' ≠ .add f w) (h2 : ∀ w, d' ≠ .once w) (hid : id ≤ id') (hid' : id' = id ∨ m < id') (h3 : ∀ f, d' = .wait f → m < id')
    (hall : id' = id ∨ m ≤ id) (hct : count' + (dcharge d).toNat = count + (dcharge d').toNat)
    (hn : isNewId d' = true → (m : Int) < count' ∧ count' ≤ M ∧ dcharge d = false) : W m M ws pool id' count' d' := by
  obtain ⟨ids, inj, all, pnd, pl, pa, pi, ad, on, nw, bf, ts, dd, p3, wt, ct, tm, mm⟩ := h
  have na : ∀ f w, d ≠ .add f w := by rcases hd with hd | ⟨_, rfl⟩ | ⟨_, rfl⟩ <;> intro f w e <;> first | (subst e; cases hd) | cases e
  have no : ∀ w, d ≠ .once w := by rcases hd with hd | ⟨_, rfl⟩ | ⟨_, rfl⟩ <;> intro w e <;> first | (subst e; cases hd) | cases e
  have nn : isNewId d = false := by rcases hd with hd | ⟨_, rfl⟩ | ⟨_, rfl⟩ <;> first | rfl | (cases d <;> first | rfl | cases hd)
  have hle : ws.countP (extra m) ≤ ws.countP charged := by
    apply List.countP_mono_left
    intro k hk hx
    obtain ⟨w, hw⟩ := List.mem_iff_getElem?.1 hk
    have hmid : m < k.id := by simp [extra] at hx; exact hx.1
    cases hp : k.pc with
    | new => rcases nw w k hw hp with ⟨f, e⟩ | e
             · exact absurd e (na f w)
             · exact absurd e (no w)
    | sel => have := ts w k hw hp hmid
             cases hb : k.buf with
             | none => exact absurd hb this
             | some f => simp [charged, hb]
    | run f => simp [charged, hp]
    | put1 b => simp [charged, hp]
    | put2 b => simp [extra, hp] at hx
    | put3 b => simp [extra, hp] at hx
    | dead => simp [extra, hp] at hx
  refine ⟨fun w k hw => ⟨(ids w k hw).1, Nat.le_trans (ids w k hw).2 hid⟩, inj, fun n g1 g2 g3 => all n g1 g2 ?_, pnd, pl, fun w f e => absurd e (h1 f w),
    fun w k g1 g2 g3 g4 => ?_, fun f w e => absurd e (h1 f w), fun w e => absurd e (h2 w), fun w k g1 g2 => ?_, bf, ts, dd, p3, h3, by omega, ?_, ?_⟩
  · rcases hall with e | e <;> omega
  · rcases pi w k g1 g2 g3 g4 with g | ⟨f, g⟩
    · exact .inl g
    · exact absurd g (na f w)
  · rcases nw w k g1 g2 with ⟨f, e⟩ | e
    · exact absurd e (na f w)
    · exact absurd e (no w)
  · cases hx : isNewId d'
    · simp only [Bool.toNat_false]; omega
    · obtain ⟨g1, g2, g3⟩ := hn hx
      have hc' : dcharge d' = true := by cases d' <;> first | rfl | cases hx
      rw [hc', g3] at hct
      rw [g3] at ct
      simp only [Bool.toNat_true, Bool.toNat_false] at *
      omega
  · intro hM
    obtain ⟨g1, g2⟩ := mm hM
    refine ⟨?_, g2⟩
    cases hx : isNewId d'
    · rfl
    · obtain ⟨g1, g2, g3⟩ := hn hx
      omega

/-- A new worker. -/
theorem W.make (h : W m M ws pool id count d) {f : Nat} (hd : d = .newId f ∨ (d = .incId f ∧ id + 1 ≤ m)) :
    W m M (ws ++ [{ id := id + 1 }]) pool (id + 1) count (.add f ws.length) := by
  obtain ⟨ids, inj, all, pnd, pl, pa, pi, ad, on, nw, bf, ts, dd, p3, wt, ct, tm, mm⟩ := h
  have na : ∀ f w, d ≠ .add f w := by rcases hd with rfl | ⟨rfl, _⟩ <;> intro f w e <;> cases e
  have no : ∀ w, d ≠ .once w := by rcases hd with rfl | ⟨rfl, _⟩ <;> intro w e <;> cases e
  have ap : ∀ {j : Nat} {k1 : Worker}, ws[j]? = some k1 → (ws ++ [({ id := id + 1 } : Worker)])[j]? = some k1 := fun hk => by
    rw [List.getElem?_append_left (List.getElem?_eq_some_iff.1 hk).1]; exact hk
  have lt : ∀ {j : Nat} {k1 : Worker}, ws[j]? = some k1 → j ≠ ws.length := fun hk => by
    have := (List.getElem?_eq_some_iff.1 hk).1; omega
  have new : (ws ++ [({ id := id + 1 } : Worker)])[ws.length]? = some { id := id + 1 } := by simp
  refine ⟨?_, ?_, ?_, pnd, ?_, ?_, ?_, ?_, ?_, ?_, ?_, ?_, ?_, ?_, ?_, ?_, ?_, ?_⟩
  · intro j k1 hj
    replace hj := get_app hj
    rcases hj with ⟨hj, _⟩ | ⟨rfl, rfl⟩
    · have := ids j k1 hj; omega
    · simp
  · intro j j' k1 k2 hj hj' he
    replace hj := get_app hj
    replace hj' := get_app hj'
    rcases hj with ⟨hj, _⟩ | ⟨rfl, rfl⟩ <;> rcases hj' with ⟨hj', _⟩ | ⟨rfl, rfl⟩
    · exact inj _ _ _ _ hj hj' he
    · have := ids j k1 hj; simp at he; omega
    · have := ids j' k2 hj'; simp at he; omega
    · rfl
  · intro n h1 h2 h3
    by_cases e : n = id + 1
    · subst e; exact ⟨_, _, new, rfl⟩
    · obtain ⟨j, k1, hj, he⟩ := all n h1 h2 (by omega)
      exact ⟨j, k1, ap hj, he⟩
  · intro j hj
    obtain ⟨k1, g1, g2⟩ := pl j hj
    exact ⟨k1, ap g1, g2⟩
  · intro j g e hj
    cases e
    obtain ⟨k1, g1, g2⟩ := pl _ hj
    exact lt g1 rfl
  · intro j k1 hj h1 h2 h3
    replace hj := get_app hj
    rcases hj with ⟨hj, _⟩ | ⟨rfl, rfl⟩
    · rcases pi j k1 hj h1 h2 h3 with g | ⟨g, e⟩
      · exact .inl g
      · exact absurd e (na g j)
    · cases h2
  · intro g j e
    cases e
    exact ⟨_, new, rfl, .inl rfl⟩
  · intro j e; cases e
  · intro j k1 hj hp
    replace hj := get_app hj
    rcases hj with ⟨hj, _⟩ | ⟨rfl, rfl⟩
    · rcases nw j k1 hj hp with ⟨g, e⟩ | e
      · exact absurd e (na g j)
      · exact absurd e (no j)
    · exact .inl ⟨f, rfl⟩
  · intro j k1 f hj hp
    replace hj := get_app hj
    rcases hj with ⟨hj, _⟩ | ⟨rfl, rfl⟩
    · exact bf j k1 f hj hp
    · cases hp
  · intro j k1 hj hp
    replace hj := get_app hj
    rcases hj with ⟨hj, _⟩ | ⟨rfl, rfl⟩
    · exact ts j k1 hj hp
    · cases hp
  · intro j k1 hj hp
    replace hj := get_app hj
    rcases hj with ⟨hj, _⟩ | ⟨rfl, rfl⟩
    · exact dd j k1 hj hp
    · cases hp
  · intro j k1 b hj hp
    replace hj := get_app hj
    rcases hj with ⟨hj, _⟩ | ⟨rfl, rfl⟩
    · exact p3 j k1 b hj hp
    · cases hp
  · intro g e; cases e
  · have e1 : dcharge d = true := by rcases hd with rfl | ⟨rfl, _⟩ <;> rfl
    rw [e1] at ct
    simp only [List.countP_append, List.countP_singleton, charged, dcharge]
    simp only [Option.isSome_none, Bool.false_or, Bool.false_eq_true, if_false]
    omega
  · simp only [List.countP_append, List.countP_singleton, isNewId]
    rcases hd with rfl | ⟨rfl, hm⟩
    · simp only [isNewId, Bool.toNat_true, Bool.toNat_false] at tm ⊢
      split <;> omega
    · have : extra m ({ id := id + 1 } : Worker) = false := by simp [extra]; omega
      simp only [isNewId, this, Bool.toNat_false, Bool.false_eq_true, if_false] at tm ⊢
      omega
  · intro hM
    obtain ⟨g1, g2⟩ := mm hM
    refine ⟨rfl, fun j k1 hj => ?_⟩
    replace hj := get_app hj
    rcases hj with ⟨hj, _⟩ | ⟨rfl, rfl⟩
    · exact g2 j k1 hj
    · rcases hd with rfl | ⟨rfl, hm⟩
      · cases g1
      · exact hm

theorem W.take (h : W m M ws pool id count d) {f w : Nat} {p : List Nat} (hd : d = .wait f) (hp : pool = w :: p) : W m M ws p id count (.add f w) := by
  obtain ⟨ids, inj, all, pnd, pl, pa, pi, ad, on, nw, bf, ts, dd, p3, wt, ct, tm, mm⟩ := h
  subst hd hp
  rw [List.nodup_cons] at pnd
  refine ⟨ids, inj, all, pnd.2, fun j hj => pl j (by simp [hj]), ?_, ?_, ?_, ?_, ?_, bf, ts, dd, p3, ?_, ct, tm, ?_⟩
  · intro j g e; cases e; exact pnd.1
  · intro j k1 hj h1 h2 h3
    rcases pi j k1 hj h1 h2 h3 with g | ⟨g, e⟩
    · rcases List.mem_cons.1 g with rfl | g
      · exact .inr ⟨f, rfl⟩
      · exact .inl g
    · cases e
  · intro g j e
    cases e
    obtain ⟨k, g1, g2, g3, g4⟩ := pl w (by simp)
    exact ⟨k, g1, g4, .inr ⟨g3, g2⟩⟩
  · intro j e; cases e
  · intro j k1 hj hp
    rcases nw j k1 hj hp with ⟨g, e⟩ | e <;> cases e
  · intro g e; cases e
  · intro hM; exact ⟨rfl, (mm hM).2⟩

theorem W.give (h : W m M ws pool id count d) {f w : Nat} {k : Worker} (hd : d = .add f w) (hk : ws[w]? = some k) :
    W m M (ws.set w { k with buf := some f }) pool id count (.once w) := by
  have e1 := cnt_set (p := charged) (c' := { k with buf := some f }) hk
  have e2 := cnt_set (p := extra m) (c' := { k with buf := some f }) hk
  obtain ⟨ids, inj, all, pnd, pl, pa, pi, ad, on, nw, bf, ts, dd, p3, wt, ct, tm, mm⟩ := h
  subst hd
  obtain ⟨k0, a1, a2, a3⟩ := ad f w rfl
  rw [hk] at a1; cases a1
  have hnp := pa w f rfl
  have hex : extra m { k with buf := some f } = extra m k := rfl
  have hch : charged k = false := by rcases a3 with a3 | ⟨a3, _⟩ <;> simp [charged, a2, a3]
  have hch' : charged { k with buf := some f } = true := by simp [charged]
  refine ⟨?_, ?_, ?_, pnd, ?_, ?_, ?_, ?_, ?_, ?_, ?_, ?_, ?_, ?_, ?_, ?_, ?_, ?_⟩
  · intro j k1 hj
    replace hj := get_set_cases hj
    rcases hj with ⟨rfl, rfl⟩ | ⟨_, hj⟩
    · exact ids j k hk
    · exact ids j k1 hj
  · intro j j' k1 k2 hj hj' he
    replace hj := get_set_cases hj
    replace hj' := get_set_cases hj'
    rcases hj with ⟨rfl, rfl⟩ | ⟨_, hj⟩ <;> rcases hj' with ⟨rfl, rfl⟩ | ⟨_, hj'⟩
    · rfl
    · exact inj _ _ _ _ hk hj' he
    · exact inj _ _ _ _ hj hk he
    · exact inj _ _ _ _ hj hj' he
  · intro n h1 h2 h3
    obtain ⟨j, k1, hj, he⟩ := all n h1 h2 h3
    by_cases e : j = w
    · subst e; rw [hk] at hj; cases hj
      exact ⟨j, _, get_set_self hk, he⟩
    · exact ⟨j, k1, by rw [get_set_ne e]; exact hj, he⟩
  · intro j hj
    obtain ⟨k1, g1, g2⟩ := pl j hj
    have : j ≠ w := by rintro rfl; exact hnp hj
    exact ⟨k1, by rw [get_set_ne this]; exact g1, g2⟩
  · intro j g e; cases e
  · intro j k1 hj h1 h2 h3
    replace hj := get_set_cases hj
    rcases hj with ⟨rfl, rfl⟩ | ⟨hne, hj⟩
    · cases h3
    · rcases pi j k1 hj h1 h2 h3 with g | ⟨g, e⟩
      · exact .inl g
      · cases e; exact absurd rfl hne
  · intro g j e; cases e
  · intro j e
    cases e
    exact ⟨_, get_set_self hk, fun _ => by simp⟩
  · intro j k1 hj hp
    replace hj := get_set_cases hj
    rcases hj with ⟨rfl, rfl⟩ | ⟨hne, hj⟩
    · exact .inr rfl
    · rcases nw j k1 hj hp with ⟨g, e⟩ | e
      · cases e; exact absurd rfl hne
      · cases e
  · intro j k1 g hj hp
    replace hj := get_set_cases hj
    rcases hj with ⟨rfl, rfl⟩ | ⟨_, hj⟩
    · rcases a3 with a3 | ⟨a3, _⟩
      · exact .inl a3
      · exact .inr a3
    · exact bf j k1 g hj hp
  · intro j k1 hj hp hm
    replace hj := get_set_cases hj
    rcases hj with ⟨rfl, rfl⟩ | ⟨_, hj⟩
    · simp
    · exact ts j k1 hj hp hm
  · intro j k1 hj hp
    replace hj := get_set_cases hj
    rcases hj with ⟨rfl, rfl⟩ | ⟨_, hj⟩
    · exact dd j k hk hp
    · exact dd j k1 hj hp
  · intro j k1 b hj hp
    replace hj := get_set_cases hj
    rcases hj with ⟨rfl, rfl⟩ | ⟨_, hj⟩
    · exact p3 j k b hk hp
    · exact p3 j k1 b hj hp
  · intro g e; cases e
  · rw [hch, hch'] at e1
    simp only [dcharge, Bool.toNat_true, Bool.toNat_false] at ct e1 ⊢
    omega
  · rw [hex] at e2
    simp only [isNewId, Bool.toNat_false] at tm ⊢
    omega
  · intro hM
    obtain ⟨g1, g2⟩ := mm hM
    refine ⟨rfl, fun j k1 hj => ?_⟩
    replace hj := get_set_cases hj
    rcases hj with ⟨rfl, rfl⟩ | ⟨_, hj⟩
    · exact g2 j k hk
    · exact g2 j k1 hj

theorem W.begin (h : W m M ws pool id count d) {w : Nat} {k : Worker} (hd : d = .once w) (hk : ws[w]? = some k) (hp : k.pc = .new) :
    W m M (ws.set w { k with pc := .sel }) pool id count .dec := by
  have e1 := cnt_set (p := charged) (c' := { k with pc := .sel }) hk
  have e2 := cnt_set (p := extra m) (c' := { k with pc := .sel }) hk
  obtain ⟨ids, inj, all, pnd, pl, pa, pi, ad, on, nw, bf, ts, dd, p3, wt, ct, tm, mm⟩ := h
  subst hd
  obtain ⟨k0, a1, a2⟩ := on w rfl
  rw [hk] at a1; cases a1
  have hb := a2 hp
  have hex : extra m { k with pc := .sel } = extra m k := by simp [extra, hp]
  have hch : charged { k with pc := .sel } = charged k := by simp [charged, hp]
  have hnp : w ∉ pool := fun hw => by
    obtain ⟨k1, g1, g2, g3, _⟩ := pl w hw
    rw [hk] at g1; cases g1
    rw [hp] at g3; cases g3
  refine ⟨?_, ?_, ?_, pnd, ?_, ?_, ?_, ?_, ?_, ?_, ?_, ?_, ?_, ?_, ?_, ?_, ?_, ?_⟩
  · intro j k1 hj
    replace hj := get_set_cases hj
    rcases hj with ⟨rfl, rfl⟩ | ⟨_, hj⟩
    · exact ids j k hk
    · exact ids j k1 hj
  · intro j j' k1 k2 hj hj' he
    replace hj := get_set_cases hj
    replace hj' := get_set_cases hj'
    rcases hj with ⟨rfl, rfl⟩ | ⟨_, hj⟩ <;> rcases hj' with ⟨rfl, rfl⟩ | ⟨_, hj'⟩
    · rfl
    · exact inj _ _ _ _ hk hj' he
    · exact inj _ _ _ _ hj hk he
    · exact inj _ _ _ _ hj hj' he
  · intro n h1 h2 h3
    obtain ⟨j, k1, hj, he⟩ := all n h1 h2 h3
    by_cases e : j = w
    · subst e; rw [hk] at hj; cases hj
      exact ⟨j, _, get_set_self hk, he⟩
    · exact ⟨j, k1, by rw [get_set_ne e]; exact hj, he⟩
  · intro j hj
    obtain ⟨k1, g1, g2⟩ := pl j hj
    have : j ≠ w := by rintro rfl; exact hnp hj
    exact ⟨k1, by rw [get_set_ne this]; exact g1, g2⟩
  · intro j g e; cases e
  · intro j k1 hj h1 h2 h3
    replace hj := get_set_cases hj
    rcases hj with ⟨rfl, rfl⟩ | ⟨hne, hj⟩
    · exact absurd h3 hb
    · rcases pi j k1 hj h1 h2 h3 with g | ⟨g, e⟩
      · exact .inl g
      · cases e
  · intro g j e; cases e
  · intro j e; cases e
  · intro j k1 hj hp
    replace hj := get_set_cases hj
    rcases hj with ⟨rfl, rfl⟩ | ⟨hne, hj⟩
    · cases hp
    · rcases nw j k1 hj hp with ⟨g, e⟩ | e
      · cases e
      · cases e; exact absurd rfl hne
  · intro j k1 g hj hp
    replace hj := get_set_cases hj
    rcases hj with ⟨rfl, rfl⟩ | ⟨_, hj⟩
    · exact .inr rfl
    · exact bf j k1 g hj hp
  · intro j k1 hj hp hm
    replace hj := get_set_cases hj
    rcases hj with ⟨rfl, rfl⟩ | ⟨_, hj⟩
    · exact hb
    · exact ts j k1 hj hp hm
  · intro j k1 hj hp
    replace hj := get_set_cases hj
    rcases hj with ⟨rfl, rfl⟩ | ⟨_, hj⟩
    · cases hp
    · exact dd j k1 hj hp
  · intro j k1 b hj hp
    replace hj := get_set_cases hj
    rcases hj with ⟨rfl, rfl⟩ | ⟨_, hj⟩
    · cases hp
    · exact p3 j k1 b hj hp
  · intro g e; cases e
  · rw [hch] at e1
    simp only [dcharge, Bool.toNat_false] at ct e1 ⊢
    omega
  · rw [hex] at e2
    simp only [isNewId, Bool.toNat_false] at tm ⊢
    omega
  · intro hM
    obtain ⟨g1, g2⟩ := mm hM
    refine ⟨rfl, fun j k1 hj => ?_⟩
    replace hj := get_set_cases hj
    rcases hj with ⟨rfl, rfl⟩ | ⟨_, hj⟩
    · exact g2 j k hk
    · exact g2 j k1 hj

theorem W.skip (h : W m M ws pool id count d) {w : Nat} {k : Worker} (hd : d = .once w) (hk : ws[w]? = some k) (hp : k.pc ≠ .new) :
    W m M ws pool id count .dec := by
  obtain ⟨ids, inj, all, pnd, pl, pa, pi, ad, on, nw, bf, ts, dd, p3, wt, ct, tm, mm⟩ := h
  subst hd
  refine ⟨ids, inj, all, pnd, pl, (fun _ _ e => by cases e), ?_, (fun _ _ e => by cases e), (fun _ e => by cases e), ?_, bf, ts, dd, p3,
    (fun _ e => by cases e), ct, tm, fun hM => ⟨rfl, (mm hM).2⟩⟩
  · intro j k1 hj h1 h2 h3
    rcases pi j k1 hj h1 h2 h3 with g | ⟨g, e⟩
    · exact .inl g
    · cases e
  · intro j k1 hj hp1
    rcases nw j k1 hj hp1 with ⟨g, e⟩ | e
    · cases e
    · cases e; rw [hk] at hj; cases hj; exact absurd hp1 hp

end

end Gofer.GoPool
