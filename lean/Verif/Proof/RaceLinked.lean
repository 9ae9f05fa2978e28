import Verif.Proof.RaceFree
import Verif.Model.RaceLinked
/-! # LinkedHashMap respects the protection of its locations -/
namespace Gofer.Race.Linked

/-- How the locations are protected; `km` is that of the pointer `m`. -/
def kind (km : Kind Unit) : Loc → Kind Unit
  | .m => km
  | .list => .guarded ()
  | .count => .guarded ()
  | .slot _ _ => .atomic
  | .el _ => .cell
  | .kv _ => .cell
  | .it _ => .guarded ()

/-- The cells a value points to. -/
def ment : Val → Loc → Prop
  | .els l, .el e => e ∈ l
  | .elem (some e), .el e' => e = e'
  | .ptr n, .kv n' => n = n'
  | _, _ => False

theorem ment_els {l : List Nat} {c : Loc} : ment (.els l) c ↔ ∃ e ∈ l, c = .el e := by
  cases c <;> simp [ment]

theorem ment_elem {o : Option Nat} {c : Loc} : ment (.elem o) c ↔ ∃ e, o = some e ∧ c = .el e := by
  cases o <;> cases c <;> simp [ment, eq_comm]

theorem ment_ptr {n : Nat} {c : Loc} : ment (.ptr n) c ↔ c = .kv n := by
  cases c <;> simp [ment, eq_comm]

theorem ment_rest {c : Loc} : (ment .unit c ↔ False) ∧ (∀ g, ment (.gen g) c ↔ False) ∧ (∀ k, ment (.key k) c ↔ False) := by
  cases c <;> simp [ment]

def Quiet (s : LSt Unit Loc) : Prop := s.hw () = false ∧ s.hr () = 0

theorem runs_disc {km : Kind Unit} (h1 : km ≠ .atomic) (h2 : km ≠ .cell) {op : Op} {l : List A} (r : Runs op l)
    (hg : op = .get → ∀ m, km ≠ .guarded m) (hc : op = .clear → km ≠ .frozen) :
    ∀ s, Quiet s → Disc (kind km) ment s l ∧ Quiet (after (kind km) ment s l) := by
  rintro s ⟨q1, q2⟩
  cases r <;>
    simp [insert, evict, relink, inc, entry, Disc, allowed, next, after, canRead, canWrite, kind, ment_els, ment_elem, ment_ptr,
      ment_rest, upd, Quiet, q1, q2, h1, h2] <;> grind

theorem linked_setup {km : Kind Unit} (h1 : km ≠ .atomic) (h2 : km ≠ .cell) {ops : Op → Prop}
    (hg : ops .get → ∀ m, km ≠ .guarded m) (hc : ops .clear → km ≠ .frozen) {tr : Trace Unit Loc Val} {s : St Unit Loc Val} (he : exec (St.init mem0) tr = some s)
    (hfr : FreshAlloc isCell tr) (hf : Follows (fun l => ∃ op, ops op ∧ Runs op l) tr) : ∃ S, Setup (kind km) ment (St.init mem0) tr S := by
  obtain ⟨S, R⟩ := exec_run he
  refine ⟨S, R, fun _ => rfl, fun _ => rfl, ?_, fun t => ?_, fun x hx => hfr x ?_⟩
  · intro x c
    cases x <;> cases c <;> simp [St.init, mem0, ment]
  · obtain ⟨calls, hcl, hp⟩ := hf t
    refine disc_prefix hp ?_
    have : ∀ (calls : List (List A)) (s : LSt Unit Loc), Quiet s →
        (∀ c ∈ calls, ∃ op, ops op ∧ Runs op c) → Disc (kind km) ment s calls.flatten := by
      intro calls
      induction calls with
      | nil => intro _ _ _; trivial
      | cons c calls ih =>
        intro s hs hc'
        obtain ⟨op, ho, hr⟩ := hc' c (by simp)
        obtain ⟨d, e⟩ := runs_disc h1 h2 hr (fun e => hg (e ▸ ho)) (fun e => hc (e ▸ ho)) s hs
        rw [List.flatten_cons]
        exact disc_append.2 ⟨d, ih _ e fun c' h' => hc' c' (by simp [h'])⟩
    exact this calls _ ⟨rfl, rfl⟩ hcl
  · cases x <;> simp_all [kind, isCell]

theorem free_linked {km : Kind Unit} (h1 : km ≠ .atomic) (h2 : km ≠ .cell) {ops : Op → Prop}
    (hg : ops .get → ∀ m, km ≠ .guarded m) (hc : ops .clear → km ≠ .frozen) {x : Loc} (nf : kind km x ≠ .free) :
    RaceFreeOn (fun l => ∃ op, ops op ∧ Runs op l) mem0 isCell x := by
  intro tr s he hfr hf
  obtain ⟨S, P⟩ := linked_setup h1 h2 hg hc he hfr hf
  exact no_race P nf

end Gofer.Race.Linked
