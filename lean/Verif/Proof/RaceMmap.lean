import Verif.Model.RaceMmap
import Verif.Proof.RaceVal
/-! # Appends to a mapped file write different bytes -/
namespace Gofer.Race.MmapR
open Gofer.Race

/-- What a goroutine knows: it holds the mutex, what it has read of `offset` since, and the bytes that are its own. -/
structure K where
  held : Bool
  reads : List Int
  own : Option (Int × Int)

def K.init : K := ⟨false, [], none⟩

def K.next (s : K) : Act Unit Loc Int → K
  | .lock _ => ⟨true, [], none⟩
  | .unlock _ => { s with held := false, reads := [] }
  | .rd .off v => { s with reads := v :: s.reads }
  | .wr .off w =>
    match s.reads with
    | [v3, v2, _] => { s with reads := [], own := some (v2, v2 + (w - v3)) }
    | _ => { s with reads := [] }
  | _ => s

/-- For the byte `x`; `none`: the bytes do not matter. -/
def K.ok (x : Option Int) (s : K) : Act Unit Loc Int → Prop
  | .lock _ => s.held = false
  | .unlock _ => True
  | .rd .off _ => s.held = true
  | .wr .off w => s.held = true ∧ ∃ v, s.reads.head? = some v ∧ v ≤ w
  | .wr (.byte y) _ => some y = x → ∃ a b, s.own = some (a, b) ∧ a ≤ y ∧ y < b
  | _ => False

theorem copied_ok {x : Option Int} {o : Int} {n : Nat} (s : K) (h : ∀ y, some y = x → o ≤ y → y < o + n → ∃ a b, s.own = some (a, b) ∧ a ≤ y ∧ y < b) :
    Allows (K.ok x) K.next s (copied o n) ∧ (copied o n).foldl K.next s = s := by
  unfold copied
  have : ∀ l : List Nat, (∀ i ∈ l, i < n) → Allows (K.ok x) K.next s (l.map fun i : Nat => .wr (.byte (o + i)) 0) ∧
      (l.map fun i : Nat => (.wr (.byte (o + i)) 0 : Act Unit Loc Int)).foldl K.next s = s := by
    intro l
    induction l with
    | nil => intro _; exact ⟨trivial, rfl⟩
    | cons i l ih =>
      intro hl
      have ih := ih fun j hj => hl j (List.mem_cons_of_mem _ hj)
      have hi := hl i List.mem_cons_self
      refine ⟨⟨?_, ih.1⟩, ih.2⟩
      intro e
      exact h _ e (by omega) (by omega)
  exact this _ fun i hi => List.mem_range.1 hi

/-- Between two calls. -/
def Idle (s : K) : Prop := s.held = false

theorem call_ok {max : Int} {x : Option Int} {at' : Int → Nat → Prop} (hx : ∀ y, some y = x → ∀ o n, at' o n → ¬ (o ≤ y ∧ y < o + n)) {c : List (Act Unit Loc Int)} (h : Call max at' c) (s : K)
    (hs : Idle s) : Allows (K.ok x) K.next s c ∧ Idle (c.foldl K.next s) := by
  unfold Idle at hs ⊢
  cases h with
  | @append v1 v2 v3 n h =>
    have a := copied_ok (x := x) (o := v2) (n := n) ⟨false, [], some (v2, v2 + (v3 + n - v3))⟩ (fun y _ h1 h2 => ⟨_, _, rfl, h1, by omega⟩)
    rw [allows_append, List.foldl_append]
    exact ⟨⟨⟨hs, rfl, rfl, rfl, ⟨rfl, v3, rfl, by omega⟩, trivial, trivial⟩, a.1⟩, by
      show ((copied v2 n).foldl K.next ⟨false, [], some (v2, v2 + (v3 + n - v3))⟩).held = false
      rw [a.2]⟩
  | @full v => exact ⟨⟨hs, rfl, trivial, trivial⟩, rfl⟩
  | @writeAt v o n h h1 h2 =>
    have a := copied_ok (x := x) (o := o) (n := n) ⟨false, [], none⟩ (fun y hy h3 h4 => absurd ⟨h3, h4⟩ (hx y hy o n h))
    rw [allows_append, List.foldl_append]
    exact ⟨⟨⟨hs, rfl, ⟨rfl, v, rfl, by omega⟩, trivial, trivial⟩, a.1⟩, by
      show ((copied o n).foldl K.next ⟨false, [], none⟩).held = false
      rw [a.2]⟩
  | @writeIn v o n h h1 h2 =>
    have a := copied_ok (x := x) (o := o) (n := n) ⟨false, [], none⟩ (fun y hy h3 h4 => absurd ⟨h3, h4⟩ (hx y hy o n h))
    rw [allows_append, List.foldl_append]
    exact ⟨⟨⟨hs, rfl, trivial, trivial⟩, a.1⟩, by
      show ((copied o n).foldl K.next ⟨false, [], none⟩).held = false
      rw [a.2]⟩
  | out => exact ⟨⟨hs, trivial, trivial⟩, rfl⟩

section
variable {tr : Trace Unit Loc Int} {S : Nat → St Unit Loc Int} {s0 : St Unit Loc Int} {x : Option Int}

/-- What `t` knows before the action at `k`. -/
abbrev know (tr : Trace Unit Loc Int) (t k : Nat) : K := at' K.next K.init tr t k

/-- What holds before the action at `k`. -/
structure Inv (x : Option Int) (tr : Trace Unit Loc Int) (S : Nat → St Unit Loc Int) (k : Nat) : Prop where
  held : ∀ t, (know tr t k).held = true → (S k).w () = some t
  reads : ∀ t, (know tr t k).held = true → ∀ v ∈ (know tr t k).reads, v = (S k).mem .off
  empty : ∀ t, (know tr t k).held = false → (know tr t k).reads = []
  below : ∀ t a b, (know tr t k).own = some (a, b) → b ≤ (S k).mem .off
  apart : ∀ t u a b a' b', t ≠ u → (know tr t k).own = some (a, b) → (know tr u k).own = some (a', b') → b ≤ a' ∨ b' ≤ a
  past : ∀ y, some y = x → ∀ i < k, ∀ t v, tr[i]? = some (t, .wr (.byte y) v) → y < (S k).mem .off ∧
    ∀ u, t ≠ u → ∀ a b, (know tr u k).own = some (a, b) → ¬ (a ≤ y ∧ y < b)

theorem past_same {k : Nat} {s' : St Unit Loc Int} {K' : Nat → K} (I : Inv x tr S k) {t : Nat} {a : Act Unit Loc Int} (e : tr[k]? = some (t, a))
    (ha : ∀ y v, a ≠ .wr (.byte y) v) (hm : (S k).mem .off ≤ s'.mem .off)
    (hk : ∀ u p q, (K' u).own = some (p, q) → (know tr u k).own = some (p, q) ∨ (u = t ∧ (S k).mem .off ≤ p)) :
    ∀ y, some y = x → ∀ i < k + 1, ∀ t v, tr[i]? = some (t, .wr (.byte y) v) → y < s'.mem .off ∧ ∀ u, t ≠ u → ∀ p q, (K' u).own = some (p, q) → ¬ (p ≤ y ∧ y < q) := by
  intro y hy i hi t' v h
  by_cases hik : i = k
  · subst hik
    rw [e] at h
    simp only [Option.some.injEq, Prod.mk.injEq] at h
    exact absurd h.2 (ha y v)
  · have := I.past y hy i (by omega) t' v h
    refine ⟨by omega, fun u hu p q hq => ?_⟩
    rcases hk u p q hq with h1 | ⟨rfl, h1⟩
    · exact this.2 u hu p q h1
    · omega

theorem inv (R : Run s0 tr S) (A : ∀ t, Allows (K.ok x) K.next K.init (proj t tr)) : ∀ k ≤ tr.length, Inv x tr S k := by
  intro k
  induction k with
  | zero =>
    intro _
    have z : ∀ t, know tr t 0 = K.init := fun t => at'_zero tr t
    constructor <;> intros <;> simp_all [K.init]
  | succ k ih =>
    intro hk
    have I := ih (by omega)
    obtain ⟨t, a, e⟩ := nth (tr := tr) (k := k) (by omega)
    have st := R.step k t a e
    have ok := allows_at (A t) e
    have kn : ∀ u, know tr u (k + 1) = if t = u then K.next (know tr u k) a else know tr u k := fun u => at'_succ e u
    have kt : know tr t (k + 1) = K.next (know tr t k) a := by rw [kn, if_pos rfl]
    have ku : ∀ u, t ≠ u → know tr u (k + 1) = know tr u k := fun u h => by rw [kn, if_neg h]
    change K.ok x (know tr t k) a at ok
    -- another holder of the mutex would be the same goroutine
    have own : ∀ u, (know tr u k).held = true → (know tr t k).held = true → t = u := by
      intro u h1 h2
      have h3 := I.held u h1
      rw [I.held t h2] at h3
      exact Option.some.inj h3
    cases a with
    | lock m =>
      simp only [St.step] at st
      split at st
      · rename_i hc
        simp only [Option.some.injEq] at st
        have nobody : ∀ u, (know tr u k).held = false := by
          intro u
          by_contra hh
          have := I.held u (by simpa using hh)
          rw [show m = () from rfl] at hc
          rw [hc.1] at this
          cases this
        have om : ∀ u p q, (know tr u (k + 1)).own = some (p, q) → (know tr u k).own = some (p, q) := by
          intro u p q h
          by_cases hu : t = u
          · subst hu; rw [kt] at h; simp [K.next] at h
          · rwa [ku u hu] at h
        refine ⟨?_, ?_, ?_, ?_, ?_, ?_⟩
        · intro u hu
          by_cases h : t = u
          · subst h; rw [← st]; simp [upd]
          · rw [ku u h, nobody u] at hu; cases hu
        · intro u hu
          by_cases h : t = u
          · subst h; rw [kt]; simp [K.next]
          · rw [ku u h, nobody u] at hu; cases hu
        · intro u hu
          by_cases h : t = u
          · subst h; rw [kt] at hu; simp [K.next] at hu
          · rw [ku u h]; exact I.empty u (nobody u)
        · intro u p q h; rw [← st]; exact I.below u p q (om u p q h)
        · intro u u' p q p' q' hne h h'; exact I.apart u u' p q p' q' hne (om _ _ _ h) (om _ _ _ h')
        · exact past_same I e (by simp) (by rw [← st]; exact Int.le_refl _) fun u p q h => .inl (om u p q h)
      · cases st
    | unlock m =>
      simp only [St.step] at st
      split at st
      · rename_i hc
        simp only [Option.some.injEq] at st
        have om : ∀ u, (know tr u (k + 1)).own = (know tr u k).own := by
          intro u
          by_cases hu : t = u
          · subst hu; rw [kt]; rfl
          · rw [ku u hu]
        have nh : ∀ u, (know tr u (k + 1)).held = false := by
          intro u
          by_cases hu : t = u
          · subst hu; rw [kt]; rfl
          · rw [ku u hu]
            by_contra hh
            have := I.held u (by simpa using hh)
            rw [hc] at this
            exact hu (Option.some.inj this)
        refine ⟨?_, ?_, ?_, ?_, ?_, ?_⟩
        · intro u hu; rw [nh u] at hu; cases hu
        · intro u hu; rw [nh u] at hu; cases hu
        · intro u _
          by_cases h : t = u
          · subst h; rw [kt]; rfl
          · have := nh u
            rw [ku u h] at this ⊢
            exact I.empty u this
        · intro u p q h; rw [← st]; rw [om] at h; exact I.below u p q h
        · intro u u' p q p' q' hne h h'; rw [om] at h h'; exact I.apart u u' p q p' q' hne h h'
        · exact past_same I e (by simp) (by rw [← st]; exact Int.le_refl _) fun u p q h => .inl (by rwa [om] at h)
      · cases st
    | rd y v =>
      cases y with
      | byte y => exact absurd ok (by simp [K.ok])
      | off =>
        simp only [St.step] at st
        split at st
        · rename_i hc
          simp only [Option.some.injEq] at st
          have om : ∀ u, (know tr u (k + 1)).own = (know tr u k).own ∧ (know tr u (k + 1)).held = (know tr u k).held := by
            intro u
            by_cases hu : t = u
            · subst hu; rw [kt]; exact ⟨rfl, rfl⟩
            · rw [ku u hu]; exact ⟨rfl, rfl⟩
          refine ⟨?_, ?_, ?_, ?_, ?_, ?_⟩
          · intro u hu; rw [(om u).2] at hu; rw [← st]; exact I.held u hu
          · intro u hu w hw
            rw [(om u).2] at hu
            rw [← st]
            by_cases h : t = u
            · subst h
              rw [kt] at hw
              simp only [K.next, List.mem_cons] at hw
              rcases hw with rfl | hw
              · exact hc.symm
              · exact I.reads t hu w hw
            · rw [ku u h] at hw
              exact I.reads u hu w hw
          · intro u hu
            rw [(om u).2] at hu
            by_cases h : t = u
            · subst h
              have : (know tr t k).held = true := ok
              rw [this] at hu; cases hu
            · rw [ku u h]; exact I.empty u hu
          · intro u p q h; rw [← st]; rw [(om u).1] at h; exact I.below u p q h
          · intro u u' p q p' q' hne h h'; rw [(om _).1] at h h'; exact I.apart u u' p q p' q' hne h h'
          · exact past_same I e (by simp) (by rw [← st]; exact Int.le_refl _) fun u p q h => .inl (by rwa [(om u).1] at h)
        · cases st
    | wr y w =>
      simp only [St.step, Option.some.injEq] at st
      cases y with
      | off =>
        obtain ⟨hh, v, hv, hvw⟩ := ok
        have hm : (S (k + 1)).mem .off = w := by rw [← st]; simp [upd]
        have hw : (S (k + 1)).w = (S k).w := by rw [← st]
        have hv' : v = (S k).mem .off := I.reads t hh v (List.mem_of_mem_head? hv)
        have hle : (S k).mem .off ≤ (S (k + 1)).mem .off := by omega
        have held : ∀ u, (know tr u (k + 1)).held = (know tr u k).held := by
          intro u
          by_cases hu : t = u
          · subst hu; rw [kt]; simp only [K.next]; split <;> rfl
          · rw [ku u hu]
        have rds : (know tr t (k + 1)).reads = [] := by
          rw [kt]; simp only [K.next]; split <;> rfl
        have om : ∀ u p q, (know tr u (k + 1)).own = some (p, q) → (know tr u k).own = some (p, q) ∨ (u = t ∧ (S k).mem .off ≤ p ∧ q ≤ w) := by
          intro u p q h
          by_cases hu : t = u
          · subst hu
            rw [kt] at h
            simp only [K.next] at h
            split at h
            · rename_i v3 v2 v1 hr
              simp only [Option.some.injEq, Prod.mk.injEq] at h
              have h3 := I.reads t hh v3 (by rw [hr]; simp)
              have h2 := I.reads t hh v2 (by rw [hr]; simp)
              exact .inr ⟨rfl, by omega, by omega⟩
            · exact .inl h
          · rw [ku u hu] at h; exact .inl h
        refine ⟨?_, ?_, ?_, ?_, ?_, ?_⟩
        · intro u hu; rw [held] at hu; rw [hw]; exact I.held u hu
        · intro u hu
          rw [held] at hu
          have := own u hu hh
          subst this
          rw [rds]; simp
        · intro u hu
          rw [held] at hu
          by_cases h : t = u
          · subst h; exact rds
          · rw [ku u h]; exact I.empty u hu
        · intro u p q h
          rcases om u p q h with h | ⟨-, -, h⟩
          · have := I.below u p q h; omega
          · omega
        · intro u u' p q p' q' hne h h'
          rcases om u p q h with h | ⟨rfl, h1, -⟩ <;> rcases om u' p' q' h' with h' | ⟨rfl, h1', -⟩
          · exact I.apart u u' p q p' q' hne h h'
          · have := I.below u p q h; omega
          · have := I.below u' p' q' h'; omega
          · exact absurd rfl hne
        · exact past_same I e (by simp) hle fun u p q h => (om u p q h).imp_right fun h => ⟨h.1, h.2.1⟩
      | byte y =>
        have hm : (S (k + 1)).mem .off = (S k).mem .off := by rw [← st]; simp [upd]
        have hw : (S (k + 1)).w = (S k).w := by rw [← st]
        have kk : ∀ u, know tr u (k + 1) = know tr u k := by
          intro u
          by_cases hu : t = u
          · subst hu; rw [kt]; rfl
          · rw [ku u hu]
        refine ⟨?_, ?_, ?_, ?_, ?_, ?_⟩
        · intro u hu; rw [kk] at hu; rw [hw]; exact I.held u hu
        · intro u hu; rw [kk] at hu ⊢; rw [hm]; exact I.reads u hu
        · intro u hu; rw [kk] at hu ⊢; exact I.empty u hu
        · intro u p q h; rw [kk] at h; rw [hm]; exact I.below u p q h
        · intro u u' p q p' q' hne h h'; rw [kk] at h h'; exact I.apart u u' p q p' q' hne h h'
        · intro y' hy i hi t' v h
          by_cases hik : i = k
          · subst hik
            rw [e] at h
            simp only [Option.some.injEq, Prod.mk.injEq, Act.wr.injEq, Loc.byte.injEq] at h
            obtain ⟨rfl, rfl, -⟩ := h
            obtain ⟨p, q, h1, h2, h3⟩ := ok hy
            refine ⟨?_, fun u hu p' q' h' => ?_⟩
            · have := I.below t p q h1; omega
            · rw [kk] at h'
              have := I.apart t u p q p' q' hu h1 h'
              omega
          · have := I.past y' hy i (by omega) t' v h
            refine ⟨by omega, fun u hu p q h => ?_⟩
            rw [kk] at h
            exact this.2 u hu p q h
    | rlock m => exact absurd ok (by simp [K.ok])
    | runlock m => exact absurd ok (by simp [K.ok])
    | aload y v => exact absurd ok (by simp [K.ok])
    | armw y v w => exact absurd ok (by simp [K.ok])
    | chan y => exact absurd ok (by simp [K.ok])
    | go y => exact absurd ok (by simp [K.ok])

/-- Only one goroutine writes the byte `x`. -/
theorem byte_free {x : Int} (R : Run s0 tr S) (A : ∀ t, Allows (K.ok (some x)) K.next K.init (proj t tr)) : ¬ RaceOn tr (.byte x) := by
  rintro ⟨i, j, hij, ⟨t, a⟩, ⟨u, b⟩, hi, hj, ne, ⟨wa, ta, wb, tb, ea, eb, -, -⟩, -⟩
  have wr : ∀ {k t : Nat} {a : Act Unit Loc Int} {w at'' : Bool}, tr[k]? = some (t, a) → a.access = some (.byte x, w, at'') → ∃ v, a = .wr (.byte x) v := by
    intro k t a w at'' hk ha
    have ok := allows_at (A t) hk
    cases a with
    | wr y v => simp only [Act.access, Option.some.injEq, Prod.mk.injEq] at ha; exact ⟨v, by rw [ha.1]⟩
    | rd y v => simp only [Act.access, Option.some.injEq, Prod.mk.injEq] at ha; obtain ⟨rfl, -⟩ := ha; exact absurd ok (by simp [K.ok])
    | aload y v => exact absurd ok (by simp [K.ok])
    | armw y v w => exact absurd ok (by simp [K.ok])
    | _ => simp [Act.access] at ha
  obtain ⟨v, rfl⟩ := wr hi ea
  obtain ⟨v', rfl⟩ := wr hj eb
  have ok := allows_at (A u) hj
  obtain ⟨p, q, h1, h2, h3⟩ := ok rfl
  exact ((inv R A j (by have := getq_lt hj; omega)).past x rfl i hij t v hi).2 u ne p q h1 ⟨h2, h3⟩

/-- `offset` is accessed under the mutex only. -/
theorem off_free (R : Run s0 tr S) (hw : ∀ m, s0.w m = none) (hr : ∀ m, s0.r m = []) (A : ∀ t, Allows (K.ok x) K.next K.init (proj t tr)) :
    ¬ RaceOn tr .off := by
  rintro ⟨i, j, hij, ⟨t, a⟩, ⟨u, b⟩, hi, hj, ne, ⟨wa, ta, wb, tb, ea, eb, -, -⟩, hn⟩
  apply hn
  have hl := getq_lt hj
  have hold : ∀ {k t : Nat} {a : Act Unit Loc Int} {w at'' : Bool}, tr[k]? = some (t, a) → a.access = some (.off, w, at'') → (know tr t k).held = true := by
    intro k t a w at'' hk ha
    have ok := allows_at (A t) hk
    cases a with
    | wr y v => simp only [Act.access, Option.some.injEq, Prod.mk.injEq] at ha; obtain ⟨rfl, -⟩ := ha; exact ok.1
    | rd y v => simp only [Act.access, Option.some.injEq, Prod.mk.injEq] at ha; obtain ⟨rfl, -⟩ := ha; exact ok
    | aload y v => exact absurd ok (by simp [K.ok])
    | armw y v w => exact absurd ok (by simp [K.ok])
    | _ => simp [Act.access] at ha
  exact hb_of_holds R hw hr (m := ()) (b := true) (c := true) hij ne hi hj ((inv R A i (by omega)).held t (hold hi ea)) ((inv R A j (by omega)).held u (hold hj eb))
    (.inl rfl) (by simp only at ea; rw [ea]; simp)

end
end Gofer.Race.MmapR
