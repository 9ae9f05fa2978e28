import Verif.Proof.RaceFree
import Verif.Model.RaceHand
import Verif.Proof.RaceLinked
import Verif.Spec.RaceHand
/-! # Records that are handed over are written before they are read -/
namespace Gofer.Race

section
variable {M X V : Type} [DecidableEq M] [DecidableEq X] [DecidableEq V] {kind : X → Kind M} {ment : V → X → Prop} {s0 : St M X V} {tr : Trace M X V} {S : Nat → St M X V}

theorem mem_after (P : Setup kind ment s0 tr S) {x : X} (hc : kind x = .cell) {w t : Nat} {v : V} (hw : tr[w]? = some (t, .wr x v)) :
    ∀ k, w < k → k ≤ tr.length → (S k).mem x = v := by
  intro k
  induction k with
  | zero => omega
  | succ k ih =>
    intro h1 h2
    obtain ⟨u, a, e⟩ := getq_of_lt (tr := tr) (k := k) (by omega)
    have st := P.run.step k u a e
    by_cases hk : k = w
    · subst hk
      rw [hw] at e
      cases e
      simp only [St.step, Option.some.injEq] at st
      rw [← st]; simp [upd]
    have ih := ih (by omega) (by omega)
    cases a with
    | wr y v' =>
      have : x ≠ y := fun h => hk (P.fresh x hc _ _ _ _ _ _ (h ▸ e) hw)
      simp only [St.step, Option.some.injEq] at st
      rw [← st]; simpa [upd, this] using ih
    | armw y a b =>
      have : x ≠ y := fun h => by
        subst h
        exact absurd ((access_ok P e rfl).2.2.1 hc).1 (by simp)
      simp only [St.step] at st
      split at st <;> [skip; cases st]
      simp only [Option.some.injEq] at st
      rw [← st]; simpa [upd, this] using ih
    | _ =>
      simp only [St.step] at st
      first
      | (split at st <;> [skip; cases st]; simp only [Option.some.injEq] at st; rw [← st]; exact ih)
      | (simp only [Option.some.injEq] at st; rw [← st]; exact ih)

theorem read_seen (P : Setup kind ment s0 tr S) {x : X} (hc : kind x = .cell) {j u : Nat} {v : V} (hj : tr[j]? = some (u, .rd x v)) :
    ∃ i t, tr[i]? = some (t, .wr x v) ∧ hb tr i j := by
  have hl := getq_lt hj
  obtain ⟨_, g2, _⟩ := (access_ok P hj rfl).2.2.1 hc
  obtain ⟨w, t, v', k1, k2, k3⟩ := (seen_all P j (by omega) u x (g2 rfl)).hb hj
  have hval := value_read (P.run.step j u _ hj) (.inl rfl)
  rw [mem_after P hc k2 j k1 (by omega)] at hval
  subst hval
  exact ⟨w, t, k2, k3⟩
end
end Gofer.Race

namespace Gofer.Race.Hand

def kind : Loc → Kind Nat
  | .slot _ => .atomic
  | .buf _ _ => .atomic
  | .state m => .guarded m
  | .record _ => .cell

def ment : Val → Loc → Prop
  | .recs l, .record r => r ∈ l
  | _, _ => False

theorem ment_recs {l : List Nat} {c : Loc} : ment (.recs l) c ↔ ∃ r ∈ l, c = .record r := by cases c <;> simp [ment]

theorem ment_rest {c : Loc} : (ment .nothing c ↔ False) ∧ ∀ k, ment (.chan k) c ↔ False := by cases c <;> simp [ment]

theorem ment_val {v : Val} {c : Loc} : ment v c ↔ ∃ r ∈ v.list, c = .record r := by cases v <;> cases c <;> simp [ment, Val.list]

theorem list_nothing : Val.nothing.list = [] := rfl

theorem list_recs (l : List Nat) : (Val.recs l).list = l := rfl

/-- No mutex is held. -/
def Quiet (s : LSt Nat Loc) : Prop := (∀ m, s.hw m = false) ∧ ∀ m, s.hr m = 0

def Good (l : List A) : Prop := ∀ s, Quiet s → Disc kind ment s l ∧ Quiet (after kind ment s l)

theorem look_disc {rs : List Nat} : ∀ {s : LSt Nat Loc}, (∀ r ∈ rs, s.K (.record r)) →
    Disc kind ment s (look rs) ∧ (after kind ment s (look rs)).hw = s.hw ∧ (after kind ment s (look rs)).hr = s.hr ∧ ∀ c, s.K c → (after kind ment s (look rs)).K c := by
  induction rs with
  | nil => intro s _; exact ⟨trivial, rfl, rfl, fun _ h => h⟩
  | cons r rs ih =>
    intro s h
    obtain ⟨h1, h2, h3, h4⟩ := @ih (next kind ment s (.rd (.record r) .nothing)) fun x hx => .inl (h x (by simp [hx]))
    refine ⟨⟨?_, h1⟩, h2, h3, fun c hc => h4 c (.inl hc)⟩
    have := h r (by simp)
    simp [allowed, canRead, kind, this]

/-- Looking at known records at the end. -/
theorem good_look {l : List A} {rs : List Nat} (h : Good l) (hk : ∀ s, ∀ r ∈ rs, (after kind ment s l).K (.record r)) : Good (l ++ look rs) := by
  intro s hs
  obtain ⟨h1, h2⟩ := h s hs
  obtain ⟨h3, h4, h5, _⟩ := look_disc (hk s)
  rw [after_append]
  exact ⟨disc_append.2 ⟨h1, h3⟩, by rw [Quiet, h4, h5]; exact h2⟩

theorem loads_disc {k n : Nat} : ∀ {s : LSt Nat Loc}, Disc kind ment s (List.replicate n (.aload (.slot k) .nothing)) ∧
    (after kind ment s (List.replicate n (.aload (.slot k) .nothing))).hw = s.hw ∧ (after kind ment s (List.replicate n (.aload (.slot k) .nothing))).hr = s.hr ∧
      ∀ c, s.K c → (after kind ment s (List.replicate n (.aload (.slot k) .nothing))).K c := by
  induction n with
  | zero => intro s; exact ⟨trivial, rfl, rfl, fun _ h => h⟩
  | succ n ih =>
    intro s
    obtain ⟨h1, h2, h3, h4⟩ := @ih (next kind ment s (.aload (.slot k) .nothing))
    refine ⟨⟨?_, h1⟩, h2, h3, fun c hc => h4 c (.inl hc)⟩
    simp [allowed, canRead, kind]

/-- A record is made, there are loads without result, then the rest. -/
theorem good_put {k n r : Nat} {l : List A} (h : ∀ s, Quiet s → s.K (.record r) → Disc kind ment s l ∧ Quiet (after kind ment s l)) :
    Good (make r ++ List.replicate n (.aload (.slot k) .nothing) ++ l) := by
  intro s hs
  rw [after_append, after_append, disc_append, disc_append, after_append]
  have h0 : Disc kind ment s (make r) := by simp [make, Disc, allowed, canWrite, kind, ment_rest]
  have h1 : (after kind ment s (make r)).K (.record r) := by simp [make, after, next, kind]
  obtain ⟨a1, a2, a3, a4⟩ := @loads_disc k n (after kind ment s (make r))
  obtain ⟨b1, b2⟩ := h (after kind ment (after kind ment s (make r)) (List.replicate n (.aload (.slot k) .nothing)))
    (by rw [Quiet, a2, a3]; exact hs) (a4 _ h1)
  exact ⟨⟨⟨h0, a1⟩, b1⟩, b2⟩

theorem await_good {ix : Nat → Nat} {l : List A} (h : AwaitCall ix l) : Good l := by
  cases h with
  | wait k c i found rs v =>
    refine good_look (fun s hs => ?_) fun s r hr => ?_
    · cases found <;>
      simp [getChan, Disc, allowed, next, after, canRead, canWrite, kind, ment_recs, ment_rest, upd, Quiet, hs.1, hs.2]
    · cases found <;> simp [getChan, after, next, ment_recs, hr]
  | waitNothing k c found v =>
    intro s hs
    cases found <;>
      simp [getChan, Disc, allowed, next, after, canRead, canWrite, kind, ment_recs, ment_rest, upd, Quiet, hs.1, hs.2]
  | put k c i r tries v w hw =>
    refine good_put fun s hs hk => ?_
    simp [Disc, allowed, next, after, canRead, canWrite, kind, ment_recs, ment_rest, upd, Quiet, hs.1, hs.2, hk]
  | putNothing k r tries v =>
    refine good_put fun s hs hk => ?_
    simp [Disc, allowed, next, after, canRead, canWrite, kind, ment_rest, upd, Quiet, hs.1, hs.2]
  | has k v =>
    intro s hs
    simp [Disc, allowed, next, after, canRead, kind, Quiet, hs.1, hs.2]

theorem fast_good {l : List A} (h : FastCall l) : Good l := by
  cases h with
  | wait k c i rs u v =>
    refine good_look (fun s hs => ?_) fun s r hr => ?_
    · simp [Disc, allowed, next, after, canWrite, kind, ment_rest, Quiet, hs.1, hs.2]
    · simp [after, next, ment_recs, hr]
  | waitNothing k c u v =>
    intro s hs
    simp [Disc, allowed, next, after, canWrite, kind, ment_rest, Quiet, hs.1, hs.2]
  | put k c i r tries v =>
    refine good_put fun s hs hk => ?_
    simp [Disc, allowed, next, after, canRead, canWrite, kind, ment_recs, ment_rest, Quiet, hs.1, hs.2, hk]
  | putNothing k r tries u v =>
    refine good_put fun s hs hk => ?_
    simp [Disc, allowed, next, after, canRead, canWrite, kind, ment_rest, Quiet, hs.1, hs.2]

theorem good_nil : Good [] := fun _ hs => ⟨trivial, hs⟩

theorem good_append {l l' : List A} (h : Good l) (h' : Good l') : Good (l ++ l') := by
  intro s hs
  obtain ⟨h1, h2⟩ := h s hs
  obtain ⟨h3, h4⟩ := h' _ h2
  rw [after_append]
  exact ⟨disc_append.2 ⟨h1, h3⟩, h4⟩

theorem map_good {l : List A} (h : MapCall l) : Good l := by
  cases h with
  | put k r old =>
    refine good_look (fun s hs => ?_) fun s r hr => ?_
    · simp [make, Disc, allowed, next, after, canWrite, kind, ment_recs, ment_rest, Quiet, hs.1, hs.2]
    · simp [make, after, next, ment_recs, hr]
  | putNew k r =>
    intro s hs
    simp [make, Disc, allowed, next, after, canWrite, kind, ment_recs, ment_rest, Quiet, hs.1, hs.2]
  | get ks =>
    induction ks with
    | nil => exact good_nil
    | cons p ks ih =>
      rw [List.flatMap_cons]
      refine good_append (good_look (l := [.aload (.slot p.1) (.recs p.2)]) (fun s hs => ?_) fun s r hr => ?_) ih
      · simp [Disc, allowed, next, after, canRead, kind, Quiet, hs.1, hs.2]
      · simp [after, next, ment_recs, hr]
  | getNone k =>
    intro s hs
    simp [Disc, allowed, next, after, canRead, kind, Quiet, hs.1, hs.2]
  | del k v =>
    intro s hs
    simp [Disc, allowed, next, after, canWrite, kind, ment_rest, Quiet, hs.1, hs.2]

theorem box_good {l : List A} (h : BoxCall l) : Good l := by
  cases h with
  | put m r v new old h ho =>
    refine good_look (fun s hs => ?_) fun s x hx => ?_
    · simp only [make, Disc, allowed, next, after, canRead, canWrite, kind, ment_recs, ment_val, upd, Quiet, hs.1, hs.2, List.foldl_cons, List.foldl_nil, List.cons_append,
        List.nil_append]
      simp [list_nothing, list_recs]
      grind
    · simp only [make, after, next, ment_val, List.foldl_cons, List.foldl_nil, List.cons_append, List.nil_append]
      grind
  | get m v inside outside hi ho =>
    refine good_look (fun s hs => ?_) fun s x hx => ?_
    · rw [after_append, after_append, disc_append, disc_append, after_append]
      obtain ⟨h1, h2, h3, h4⟩ := @look_disc inside (after kind ment s [.rlock m, .rd (.state m) v]) (by
        intro x hx
        simp only [after, next, ment_val, List.foldl_cons, List.foldl_nil]
        exact .inr ⟨x, hi x hx, rfl⟩)
      refine ⟨⟨⟨?_, h1⟩, trivial, trivial⟩, ?_⟩
      · simp [Disc, allowed, next, canRead, kind, upd]
      · generalize after kind ment (after kind ment s [.rlock m, .rd (.state m) v]) (look inside) = s' at *
        simp only [after, List.foldl_cons, List.foldl_nil, next] at h2 h3
        simp only [after, List.foldl_cons, List.foldl_nil, next, Quiet, h2, h3, upd]
        refine ⟨hs.1, fun m' => ?_⟩
        by_cases e : m' = m <;> simp [e, hs.2]
    · rw [after_append, after_append]
      obtain ⟨h1, h2, h3, h4⟩ := @look_disc inside (after kind ment s [.rlock m, .rd (.state m) v]) (by
        intro x hx
        simp only [after, next, ment_val, List.foldl_cons, List.foldl_nil]
        exact .inr ⟨x, hi x hx, rfl⟩)
      refine h4 _ ?_
      simp only [after, next, ment_val, List.foldl_cons, List.foldl_nil]
      exact .inr ⟨x, ho x hx, rfl⟩
  | change m v new old h ho =>
    refine good_look (fun s hs => ?_) fun s x hx => ?_
    · simp only [Disc, allowed, next, after, canRead, canWrite, kind, ment_recs, ment_val, upd, Quiet, hs.1, hs.2, List.foldl_cons, List.foldl_nil]
      simp [list_nothing, list_recs]
      grind
    · simp only [after, next, ment_val, List.foldl_cons, List.foldl_nil]
      grind

theorem pool_good {l : List A} (h : PoolCall l) : Good l := by
  cases h with
  | go r i =>
    intro s hs
    simp [make, Disc, allowed, next, after, canWrite, kind, ment_recs, ment_rest, Quiet, hs.1, hs.2]
  | goClosed r i =>
    intro s hs
    simp [make, Disc, allowed, next, after, canWrite, kind, ment_recs, ment_rest, Quiet, hs.1, hs.2]
  | pass i n j rs =>
    intro s hs
    simp [Disc, allowed, next, after, canWrite, kind, ment_recs, ment_rest, upd, Quiet, hs.1, hs.2]
    grind
  | start i j rs =>
    intro s hs
    simp [Disc, allowed, next, after, canWrite, kind, ment_recs, ment_rest, upd, Quiet, hs.1, hs.2]
    grind
  | run c j hc rs =>
    refine good_look (l := [.armw (.buf c j) (.recs rs) .nothing]) (fun s hs => ?_) fun s x hx => ?_
    · simp [Disc, allowed, next, after, canWrite, kind, ment_rest, Quiet, hs.1, hs.2]
    · simp [after, next, ment_recs, hx]

theorem hand_setup {S : List A → Prop} (h : ∀ l, S l → Good l) {tr : Trace Nat Loc Val} {s : St Nat Loc Val} (he : exec (St.init mem0) tr = some s) (hfr : FreshAlloc isRec tr)
    (hf : Follows S tr) : ∃ S', Setup kind ment (St.init mem0) tr S' := by
  obtain ⟨St', R⟩ := exec_run he
  refine ⟨St', R, fun _ => rfl, fun _ => rfl, fun x c => ?_, fun t => ?_, fun x hx => hfr x ?_⟩
  · simp [St.init, mem0, ment_rest]
  · obtain ⟨calls, hcl, hp⟩ := hf t
    refine disc_prefix hp ?_
    have : Good calls.flatten := by
      clear hp
      induction calls with
      | nil => exact good_nil
      | cons c calls ih => exact good_append (h c (hcl c (by simp))) (ih fun c' h' => hcl c' (by simp [h']))
    exact (this _ ⟨fun _ => rfl, fun _ => rfl⟩).1
  · cases x <;> simp_all [kind, isRec]

theorem hand_free {S : List A → Prop} (h : ∀ l, S l → Good l) (x : Loc) : RaceFreeOn S mem0 isRec x := by
  intro tr s he hfr hf
  obtain ⟨S', P⟩ := hand_setup h he hfr hf
  exact no_race P (by cases x <;> simp [kind])

theorem hand_seen {S : List A → Prop} (h : ∀ l, S l → Good l) (r : Nat) : Delivered S mem0 isRec (.record r) := by
  intro tr s he hfr hf j u v hj
  obtain ⟨S', P⟩ := hand_setup h he hfr hf
  exact read_seen P rfl hj

def written : A → Option Nat
  | .wr (.record r) _ => some r
  | _ => none

theorem fresh_of {tr : Trace Nat Loc Val} (h : tr.Pairwise fun a b => (written a.2).isSome → written a.2 ≠ written b.2) : FreshAlloc isRec tr := by
  intro x hx i j t u v v' h1 h2
  cases x <;> simp only [isRec] at hx
  have key : ∀ {i j t u : Nat} {v v' : Val} {r : Nat}, tr[i]? = some (t, .wr (.record r) v) → tr[j]? = some (u, .wr (.record r) v') → ¬ i < j := by
    intro i j t u v v' r h1 h2 hij
    obtain ⟨l1, e1⟩ := List.getElem?_eq_some_iff.1 h1
    obtain ⟨l2, e2⟩ := List.getElem?_eq_some_iff.1 h2
    have := List.pairwise_iff_getElem.1 h i j l1 l2 hij
    rw [e1, e2] at this
    exact this rfl rfl
  have := key h1 h2
  have := key h2 h1
  omega

theorem one {α : Type} {S : List α → Prop} {l : List α} (h : S l) : ∀ c ∈ [l], S c := by simpa using h

theorem two {α : Type} {S : List α → Prop} {l l' : List α} (h : S l) (h' : S l') : ∀ c ∈ [l, l'], S c := by simpa using ⟨h, h'⟩

end Gofer.Race.Hand
