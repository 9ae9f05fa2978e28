import Verif.Model.RaceUuid
import Verif.Proof.RaceVal
/-! # Nobody writes `scale` before the sequence number reaches its end -/
namespace Gofer.Race.UuidR
open Gofer.Race

/-- What a goroutine knows: whether its sequence number is the last. -/
def next (s : Bool) : Act Unit Loc Nat → Bool
  | .armw _ _ w => w == maxU64
  | _ => s

def ok (s : Bool) : Act Unit Loc Nat → Prop
  | .armw .seq v w => v < maxU64 → w = v + 1
  | .rd .scale _ => True
  | .wr .scale _ => s = true
  | _ => False

theorem call_ok (c : List (Act Unit Loc Nat)) (h : Call c) (s : Bool) : Allows ok next s c := by
  cases h with
  | new h => exact ⟨fun _ => rfl, trivial, trivial⟩
  | last h => exact ⟨fun _ => rfl, trivial, by simp [next, h, ok], trivial, trivial⟩
  | wrap => exact ⟨fun h => absurd h (Nat.lt_irrefl _), trivial, trivial⟩

theorem taken_succ {tr : Trace Unit Loc Nat} {k t : Nat} {a : Act Unit Loc Nat} (h : tr[k]? = some (t, a)) :
    taken (tr.take (k + 1)) = taken (tr.take k) + (takes a).toNat := by
  rw [List.take_add_one, h]
  cases a <;> simp [taken, List.countP_append, takes]

theorem taken_take (tr : Trace Unit Loc Nat) (k : Nat) : taken (tr.take k) ≤ taken tr := by
  exact (List.take_sublist k tr).countP_le

theorem inv {tr : Trace Unit Loc Nat} {S : Nat → St Unit Loc Nat} {s0 : St Unit Loc Nat} (R : Run s0 tr S) (A : ∀ t, Allows ok next false (proj t tr))
    (hb : s0.mem .seq + taken tr < maxU64) :
    ∀ k ≤ tr.length, (S k).mem .seq = s0.mem .seq + taken (tr.take k) ∧ ∀ t, at' next false tr t k = false := by
  intro k
  induction k with
  | zero => intro _; exact ⟨by rw [R.zero]; simp [taken], fun t => at'_zero tr t⟩
  | succ k ih =>
    intro hk
    obtain ⟨h1, h2⟩ := ih (by omega)
    obtain ⟨t, a, e⟩ := nth (tr := tr) (k := k) (by omega)
    have st := R.step k t a e
    have o := allows_at (A t) e
    have le := taken_take tr (k + 1)
    rw [taken_succ e] at le
    rw [taken_succ e]
    have nx : ∀ u, at' next false tr u (k + 1) = if t = u then next (at' next false tr u k) a else at' next false tr u k := fun u => at'_succ e u
    rw [h2 t] at o
    cases a with
    | armw x v w =>
      cases x with
      | scale => exact o.elim
      | seq =>
        simp only [St.step] at st
        split at st
        · rename_i hv
          simp only [Option.some.injEq] at st
          simp only [takes, Bool.toNat_true] at le
          have hw : w = v + 1 := o (by omega)
          refine ⟨by rw [← st]; simp [upd, hw, takes]; omega, fun u => ?_⟩
          rw [nx u, h2 u]
          split
          · simp only [next, beq_eq_false_iff_ne]; omega
          · rfl
        · cases st
    | rd x v =>
      simp only [St.step] at st
      split at st
      · simp only [Option.some.injEq] at st
        refine ⟨by rw [← st]; simpa [takes] using h1, fun u => by rw [nx u, h2 u]; simp [next]⟩
      · cases st
    | wr x v =>
      cases x with
      | scale => simp [ok] at o
      | seq => exact o.elim
    | _ => exact o.elim

theorem free {tr : Trace Unit Loc Nat} {s0 s : St Unit Loc Nat} (he : exec s0 tr = some s) (hf : Follows Call tr)
    (hb : s0.mem .seq + taken tr < maxU64) (x : Loc) : ¬ RaceOn tr x := by
  obtain ⟨S, R⟩ := exec_run he
  have A : ∀ t, Allows ok next false (proj t tr) := fun t =>
    allows_follows (P := fun _ => True) (fun c hc s _ => ⟨call_ok c hc s, trivial⟩) trivial hf t
  have I := inv R A hb
  rintro ⟨i, j, hij, ⟨t, a⟩, ⟨u, b⟩, hi, hj, ne, ⟨wa, ta, wb, tb, ea, eb, hw, hn⟩, _⟩
  have hlt : ∀ {k : Nat} {e}, tr[k]? = some e → k < tr.length := fun h => (List.getElem?_eq_some_iff.1 h).1
  -- every access is an atomic write of `seq` or a read of `scale`
  have acc : ∀ {k t : Nat} {a : Act Unit Loc Nat} {w at'' : Bool}, tr[k]? = some (t, a) → a.access = some (x, w, at'') → (w = true ∧ at'' = true ∧ x = .seq) ∨ (w = false ∧ x = .scale) := by
    intro k t a w at'' h ha
    have o := allows_at (A t) h
    rw [(I k (by have := hlt h; omega)).2 t] at o
    cases a with
    | armw y v w' => cases y <;> simp [ok] at o <;> simp_all [Act.access]
    | rd y v => cases y <;> simp [ok] at o <;> simp_all [Act.access]
    | wr y v => cases y <;> simp [ok] at o
    | _ => exact o.elim
  rcases acc hi ea with ⟨h1, h2, h3⟩ | ⟨h1, h3⟩ <;> rcases acc hj eb with ⟨h4, h5, h6⟩ | ⟨h4, h6⟩
  · exact hn ⟨h2, h5⟩
  · rw [h3] at h6; cases h6
  · rw [h3] at h6; cases h6
  · rcases hw with hw | hw
    · rw [h1] at hw; cases hw
    · rw [h4] at hw; cases hw

/-- `n` ordinary calls of goroutine 0. -/
def many (v n : Nat) : Trace Unit Loc Nat := match n with
  | 0 => []
  | n + 1 => (0, .armw .seq v (v + 1)) :: (0, .rd .scale 0) :: many (v + 1) n

theorem exec_append {s : St Unit Loc Nat} (tr tr' : Trace Unit Loc Nat) : exec s (tr ++ tr') = (exec s tr).bind fun s' => exec s' tr' := by
  induction tr generalizing s with
  | nil => rfl
  | cons e tr ih =>
    obtain ⟨t, a⟩ := e
    simp only [List.cons_append, exec]
    cases s.step t a with
    | none => rfl
    | some s' => exact ih

/-- The memory. -/
def memOf (v sc : Nat) : Loc → Nat
  | .seq => v
  | .scale => sc

theorem exec_many (n : Nat) : ∀ v, exec (St.init (memOf v 0)) (many v n) = some (St.init (memOf (v + n) 0)) := by
  induction n with
  | zero => intro v; rfl
  | succ n ih =>
    intro v
    have e : upd (memOf v 0) .seq (v + 1) = memOf (v + 1) 0 := by
      funext x; cases x <;> simp [upd, memOf]
    have := ih (v + 1)
    simp only [many, exec, St.step, St.init, memOf, if_true, Option.bind_some, e]
    rw [show v + (n + 1) = v + 1 + n by omega]
    exact this

theorem proj_many (n : Nat) : ∀ v, proj 0 (many v n) = (List.map (fun i => ([.armw .seq (v + i) (v + i + 1), .rd .scale 0] : List (Act Unit Loc Nat))) (List.range n)).flatten ∧
    ∀ t, t ≠ 0 → proj t (many v n) = [] := by
  induction n with
  | zero => intro v; simp [many, proj]
  | succ n ih =>
    intro v
    have := ih (v + 1)
    constructor
    · rw [List.range_succ_eq_map, List.map_cons, List.map_map, List.flatten_cons]
      have e : (List.map ((fun i => ([.armw .seq (v + i) (v + i + 1), .rd .scale 0] : List (Act Unit Loc Nat))) ∘ Nat.succ) (List.range n)) =
          List.map (fun i => ([.armw .seq (v + 1 + i) (v + 1 + i + 1), .rd .scale 0] : List (Act Unit Loc Nat))) (List.range n) := by
        apply List.map_congr_left
        intro i _
        simp only [Function.comp]
        rw [show v + i.succ = v + 1 + i by omega]
      rw [e, ← this.1]
      simp [many, proj]
    · intro t ht
      have h2 := this.2 t ht
      simp only [proj, many] at h2 ⊢
      rw [List.filter_cons_of_neg (by simpa using Ne.symm ht), List.filter_cons_of_neg (by simpa using Ne.symm ht)]
      exact h2

end Gofer.Race.UuidR
