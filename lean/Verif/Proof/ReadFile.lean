import Verif.Model.ReadFile
import Mathlib.Data.List.Induction

/-! # Lemmas about `util.ReadFile` -/
namespace Gofer.ReadFile
variable {P : Type} [DecidableEq P]

theorem exec_snoc (p : P) (s : St P) (as : List (Act P)) (a : Act P) : exec p s (as ++ [a]) = (exec p s as).bind fun t => act p t a := by
  induction as generalizing s with
  | nil => simp [exec]
  | cons b bs ih => simp only [List.cons_append, exec, Option.bind_assoc, ih]

/-- At some moment of the execution `as`, the file system satisfies `Q`. -/
def At (p : P) (fs : FS P) (as : List (Act P)) (Q : FS P → Prop) : Prop :=
  ∃ as1 as2 t, as = as1 ++ as2 ∧ exec p ⟨fs, .start⟩ as1 = some t ∧ Q t.fs

theorem At.now {p : P} {fs : FS P} {as : List (Act P)} {s : St P} {Q : FS P → Prop} (h : exec p ⟨fs, .start⟩ as = some s) (hq : Q s.fs) :
    At p fs as Q := ⟨as, [], s, by simp, h, hq⟩

theorem At.snoc {p : P} {fs : FS P} {as : List (Act P)} {Q : FS P → Prop} (a : Act P) (h : At p fs as Q) : At p fs (as ++ [a]) Q := by
  obtain ⟨as1, as2, t, rfl, h1, h2⟩ := h
  exact ⟨as1, as2 ++ [a], t, by simp, h1, h2⟩

/-- Names lead to files, which are regular. -/
def Regular (fs : FS P) : Prop := (∀ q ino, fs.names q = some ino → ino < fs.files.length) ∧ ∀ f ∈ fs.files, f.sized = true

/-- New files are regular; and no file is made shorter. -/
def growing : Act P → Prop
  | .env (.truncate _ _) => False
  | .env (.create f) => f.sized = true
  | _ => True

/-- Files are only replaced by others. -/
def replacing : Act P → Prop
  | .env (.truncate _ _) => False
  | .env (.write _ _ _) => False
  | .env (.create f) => f.sized = true
  | _ => True

omit [DecidableEq P] in
theorem replacing_growing {a : Act P} (h : replacing a) : growing a := by
  cases a with
  | env e => cases e <;> first | exact h | trivial
  | _ => trivial

theorem change_length (files : List File) (ino : Nat) (f : List UInt8 → List UInt8) : (change files ino f).length = files.length := by
  unfold change; split <;> simp

theorem change_sized {files : List File} {ino : Nat} {f : List UInt8 → List UInt8} (h : ∀ k ∈ files, k.sized = true) :
    ∀ k ∈ change files ino f, k.sized = true := by
  unfold change
  split
  · rename_i k hk
    intro x hx
    rcases List.mem_or_eq_of_mem_set hx with hx | rfl
    · exact h x hx
    · exact h k (List.mem_of_getElem? hk)
  · exact h

theorem overwrite_length (d : List UInt8) (off : Nat) (bs : List UInt8) : d.length ≤ (overwrite d off bs).length := by
  unfold overwrite pad
  simp only [List.length_append, List.length_take, List.length_replicate, List.length_drop]
  omega

/-- A growing step keeps the files, each at least as long as before. -/
theorem env_grow {s : FS P} (hr : Regular s) {e : Env P} (h : growing (.env e)) : Regular (env s e) ∧ s.files.length ≤ (env s e).files.length ∧
    ∀ (ino : Nat) (f : File), s.files[ino]? = some f → ∃ g : File, (env s e).files[ino]? = some g ∧ f.data.length ≤ g.data.length := by
  obtain ⟨h1, h2⟩ := hr
  cases e with
  | write j off bs =>
    have he : env s (.write j off bs) = { s with files := change s.files j fun d => overwrite d off bs } := by simp only [env]
    rw [he]
    refine ⟨⟨fun q ino hq => ?_, change_sized (ino := j) (f := fun d => overwrite d off bs) h2⟩, ?_, ?_⟩
    · simp only [change_length]; exact h1 q ino hq
    · simp only [change_length]
      exact Nat.le_refl _
    · intro ino f hf
      simp only [change]
      cases hk : s.files[j]? with
      | none => exact ⟨f, hf, Nat.le_refl _⟩
      | some k =>
        simp only [List.getElem?_set]
        by_cases hj : j = ino
        · subst hj
          rw [hk] at hf
          cases hf
          have := (List.getElem?_eq_some_iff.1 hk).1
          simp only [if_true, this]
          exact ⟨_, rfl, overwrite_length _ _ _⟩
        · simp only [if_neg hj]
          exact ⟨f, hf, Nat.le_refl _⟩
  | truncate _ _ => exact absurd h id
  | create k =>
    refine ⟨⟨fun q ino hq => ?_, ?_⟩, ?_, ?_⟩
    · have := h1 q ino hq
      simp only [env, List.length_append, List.length_cons, List.length_nil]; omega
    · intro f hf
      simp only [env, List.mem_append, List.mem_singleton] at hf
      rcases hf with hf | rfl
      · exact h2 f hf
      · exact h
    · simp [env]
    · intro ino f hf
      refine ⟨f, ?_, Nat.le_refl _⟩
      simp only [env]
      rw [List.getElem?_append_left (List.getElem?_eq_some_iff.1 hf).1]; exact hf
  | rename q j =>
    simp only [env]
    split
    · refine ⟨⟨fun q' ino hq => ?_, h2⟩, Nat.le_refl _, fun ino f hf => ⟨f, hf, Nat.le_refl _⟩⟩
      simp only at hq ⊢
      split at hq
      · cases hq; assumption
      · exact h1 q' ino hq
    · exact ⟨⟨h1, h2⟩, Nat.le_refl _, fun ino f hf => ⟨f, hf, Nat.le_refl _⟩⟩
  | remove q =>
    refine ⟨⟨fun q' ino hq => ?_, h2⟩, Nat.le_refl _, fun ino f hf => ⟨f, hf, Nat.le_refl _⟩⟩
    simp only [env] at hq ⊢
    split at hq
    · cases hq
    · exact h1 q' ino hq

/-- A replacing step keeps the files as they are. -/
theorem env_replace {s : FS P} {e : Env P} (h : replacing (.env e)) {ino : Nat} {f : File} (hf : s.files[ino]? = some f) :
    (env s e).files[ino]? = some f := by
  cases e with
  | write _ _ _ => exact absurd h id
  | truncate _ _ => exact absurd h id
  | create k =>
    simp only [env]
    rw [List.getElem?_append_left (List.getElem?_eq_some_iff.1 hf).1]; exact hf
  | rename q j =>
    simp only [env]
    split <;> exact hf
  | remove q => exact hf

/-- What is known about a call while files only grow. -/
def InvG (p : P) (fs : FS P) (as : List (Act P)) (s : St P) : Prop :=
  Regular s.fs ∧
  match s.pc with
  | .start => True
  | .opened ino => At p fs as (fun t => t.names p = some ino) ∧ ino < s.fs.files.length
  | .mapped ino buf => At p fs as (fun t => t.names p = some ino) ∧ At p fs as (fun t => ∃ f : File, t.files[ino]? = some f ∧ f.data.length = buf.length) ∧
    (∃ f : File, s.fs.files[ino]? = some f ∧ buf.length ≤ f.data.length) ∧
    ∀ (i : Nat) (b : UInt8), buf[i]? = some (some b) → At p fs as (fun t => ∃ f : File, t.files[ino]? = some f ∧ f.data[i]? = some b)
  | .ok bs => ∃ ino, At p fs as (fun t => t.names p = some ino) ∧ At p fs as (fun t => ∃ f : File, t.files[ino]? = some f ∧ f.data.length = bs.length) ∧
    ∀ (i : Nat) (b : UInt8), bs[i]? = some b → At p fs as (fun t => ∃ f : File, t.files[ino]? = some f ∧ f.data[i]? = some b)
  | .error => True
  | .killed => False

theorem invG_step {p : P} {fs : FS P} {as : List (Act P)} {s t : St P} {a : Act P} (hs : exec p ⟨fs, .start⟩ as = some s)
    (hi : InvG p fs as s) (hg : growing a) (ha : act p s a = some t) : InvG p fs (as ++ [a]) t := by
  have ht : exec p ⟨fs, .start⟩ (as ++ [a]) = some t := by rw [exec_snoc, hs]; exact ha
  obtain ⟨hr, hi⟩ := hi
  obtain ⟨sfs, pc⟩ := s
  simp only at hr hi
  cases a with
  | env e =>
    simp only [act, Option.some.injEq] at ha
    subst ha
    obtain ⟨g1, g2, g3⟩ := env_grow hr hg
    refine ⟨g1, ?_⟩
    cases pc with
    | start => trivial
    | opened ino => exact ⟨hi.1.snoc _, Nat.lt_of_lt_of_le hi.2 g2⟩
    | mapped ino buf =>
      obtain ⟨i1, i2, ⟨f, i3, i4⟩, i5⟩ := hi
      obtain ⟨g, k1, k2⟩ := g3 ino f i3
      exact ⟨i1.snoc _, i2.snoc _, ⟨g, k1, Nat.le_trans i4 k2⟩, fun i b hb => (i5 i b hb).snoc _⟩
    | ok bs =>
      obtain ⟨ino, i1, i2, i3⟩ := hi
      exact ⟨ino, i1.snoc _, i2.snoc _, fun i b hb => (i3 i b hb).snoc _⟩
    | error => trivial
    | killed => exact hi
  | step =>
    cases pc with
    | start =>
      simp only [act, Option.some.injEq, openFile] at ha
      subst ha
      refine ⟨hr, ?_⟩
      cases hn : sfs.names p with
      | none => trivial
      | some ino => exact ⟨At.now ht hn, hr.1 p ino hn⟩
    | opened ino =>
      simp only [act, mapFile] at ha
      cases hf : sfs.files[ino]? with
      | none => rw [hf] at ha; cases ha
      | some f =>
        rw [hf] at ha
        have hsz := hr.2 f (List.mem_of_getElem? hf)
        simp only [hsz, if_true, Option.map_some, Option.some.injEq] at ha
        subst ha
        refine ⟨hr, ?_⟩
        by_cases h0 : f.data.length = 0
        · simp only [if_pos h0]
          refine ⟨ino, hi.1.snoc _, At.now ht ⟨f, hf, by simpa using h0⟩, fun i b hb => by simp at hb⟩
        · simp only [if_neg h0]
          refine ⟨hi.1.snoc _, At.now ht ⟨f, hf, by simp⟩, ⟨f, hf, by simp⟩, fun i b hb => ?_⟩
          rw [List.getElem?_replicate] at hb
          split at hb <;> simp at hb
    | mapped ino buf =>
      simp only [act] at ha
      split at ha
      · simp only [Option.some.injEq] at ha
        subst ha
        rename_i hall
        obtain ⟨i1, i2, _, i5⟩ := hi
        refine ⟨hr, ino, i1.snoc _, ?_, fun i b hb => ?_⟩
        · rw [List.length_map]; exact i2.snoc _
        · rw [List.getElem?_map] at hb
          obtain ⟨x, hx, rfl⟩ := Option.map_eq_some_iff.1 hb
          have hxs := List.all_eq_true.1 hall x (List.mem_of_getElem? hx)
          obtain ⟨y, rfl⟩ := Option.isSome_iff_exists.1 hxs
          exact (i5 i y hx).snoc _
      · cases ha
    | ok bs => simp [act] at ha
    | error => simp [act] at ha
    | killed => simp [act] at ha
  | fail =>
    cases pc <;> simp only [act, Option.some.injEq, reduceCtorEq] at ha
    all_goals subst ha; exact ⟨hr, trivial⟩
  | copy i =>
    cases pc with
    | mapped ino buf =>
      simp only [act, copyByte] at ha
      obtain ⟨i1, i2, ⟨f, i3, i4⟩, i5⟩ := hi
      rw [i3] at ha
      cases hb : buf[i]? with
      | none => rw [hb] at ha; simp at ha
      | some o =>
        rw [hb] at ha
        cases o with
        | some x => simp at ha
        | none =>
          have hlt := (List.getElem?_eq_some_iff.1 hb).1
          have hp : i / pageSize * pageSize < f.data.length := by
            have := Nat.div_mul_le_self i pageSize
            omega
          simp only [if_pos hp, Option.map_some, Option.some.injEq] at ha
          subst ha
          refine ⟨hr, i1.snoc _, ?_, ⟨f, i3, by simpa using i4⟩, fun j b hj => ?_⟩
          · rw [List.length_set]; exact i2.snoc _
          · rw [List.getElem?_set] at hj
            by_cases hij : i = j
            · subst hij
              simp only [if_true, hlt, Option.some.injEq] at hj
              refine At.now ht ⟨f, i3, ?_⟩
              rw [← hj, List.getD_eq_getElem?_getD, List.getElem?_eq_getElem (by omega)]
              rfl
            · rw [if_neg hij] at hj
              exact (i5 j b hj).snoc _
    | _ => simp [act] at ha

theorem invG {p : P} {fs : FS P} (hr : Regular fs) {as : List (Act P)} (hg : ∀ a ∈ as, growing a) {s : St P}
    (hs : exec p ⟨fs, .start⟩ as = some s) : InvG p fs as s := by
  revert s hg
  induction as using List.reverseRecOn with
  | nil =>
    intro _ s hs
    cases hs
    exact ⟨hr, trivial⟩
  | append_singleton bs a ih =>
    intro hg s hs
    have hs' := hs
    rw [exec_snoc] at hs'
    obtain ⟨t, ht, ha⟩ := Option.bind_eq_some_iff.1 hs'
    exact invG_step ht (ih (fun x hx => hg x (by simp [hx])) ht) (hg a (by simp)) ha

/-- What is known about a call while files are only replaced. -/
def InvR (p : P) (fs : FS P) (as : List (Act P)) (s : St P) : Prop :=
  match s.pc with
  | .opened ino => ∃ f : File, s.fs.files[ino]? = some f ∧ At p fs as (fun t => t.names p = some ino ∧ t.files[ino]? = some f)
  | .mapped ino buf => ∃ f : File, s.fs.files[ino]? = some f ∧ At p fs as (fun t => t.names p = some ino ∧ t.files[ino]? = some f) ∧
    buf.length = f.data.length ∧ ∀ (i : Nat) (b : UInt8), buf[i]? = some (some b) → f.data[i]? = some b
  | .ok bs => At p fs as (fun t => contents t p = some bs)
  | _ => True

omit [DecidableEq P] in
theorem contents_of {t : FS P} {p : P} {ino : Nat} {f : File} (h : t.names p = some ino ∧ t.files[ino]? = some f) : contents t p = some f.data := by
  simp [contents, h.1, h.2]

theorem At.mono {p : P} {fs : FS P} {as : List (Act P)} {Q R : FS P → Prop} (h : ∀ t, Q t → R t) (hq : At p fs as Q) : At p fs as R := by
  obtain ⟨as1, as2, t, e, h1, h2⟩ := hq
  exact ⟨as1, as2, t, e, h1, h t.fs h2⟩

theorem invR_step {p : P} {fs : FS P} {as : List (Act P)} {s t : St P} {a : Act P} (hs : exec p ⟨fs, .start⟩ as = some s)
    (hr : Regular s.fs) (hi : InvR p fs as s) (hg : replacing a) (ha : act p s a = some t) : InvR p fs (as ++ [a]) t := by
  have ht : exec p ⟨fs, .start⟩ (as ++ [a]) = some t := by rw [exec_snoc, hs]; exact ha
  obtain ⟨sfs, pc⟩ := s
  simp only at hr
  cases a with
  | env e =>
    simp only [act, Option.some.injEq] at ha
    subst ha
    cases pc with
    | opened ino =>
      obtain ⟨f, h1, h2⟩ := hi
      exact ⟨f, env_replace hg h1, h2.snoc _⟩
    | mapped ino buf =>
      obtain ⟨f, h1, h2, h3⟩ := hi
      exact ⟨f, env_replace hg h1, h2.snoc _, h3⟩
    | ok bs =>
      simp only [InvR] at hi ⊢
      exact hi.snoc _
    | _ => trivial
  | step =>
    cases pc with
    | start =>
      simp only [act, Option.some.injEq, openFile] at ha
      subst ha
      unfold InvR
      cases hn : sfs.names p with
      | none => trivial
      | some ino =>
        have := hr.1 p ino hn
        exact ⟨sfs.files[ino], List.getElem?_eq_getElem this, At.now ht ⟨hn, List.getElem?_eq_getElem this⟩⟩
    | opened ino =>
      simp only [act, mapFile] at ha
      obtain ⟨f, hf, h2⟩ := hi
      simp only at hf
      rw [hf] at ha
      have hsz := hr.2 f (List.mem_of_getElem? hf)
      simp only [hsz, if_true, Option.map_some, Option.some.injEq] at ha
      subst ha
      unfold InvR
      by_cases h0 : f.data.length = 0
      · simp only [if_pos h0]
        refine (h2.snoc _).mono fun t ht => ?_
        rw [contents_of ht, List.length_eq_zero_iff.1 h0]
      · simp only [if_neg h0]
        refine ⟨f, hf, h2.snoc _, by simp, fun i b hb => ?_⟩
        rw [List.getElem?_replicate] at hb
        split at hb <;> simp at hb
    | mapped ino buf =>
      simp only [act] at ha
      split at ha
      · simp only [Option.some.injEq] at ha
        subst ha
        rename_i hall
        obtain ⟨f, _, h2, h3, h4⟩ := hi
        simp only [InvR]
        refine (h2.snoc _).mono fun t ht => ?_
        rw [contents_of ht, Option.some.injEq]
        apply List.ext_getElem?
        intro i
        rw [List.getElem?_map]
        cases hb : buf[i]? with
        | none =>
          have := List.getElem?_eq_none_iff.1 hb
          rw [List.getElem?_eq_none (by omega)]
          rfl
        | some x =>
          have hxs := List.all_eq_true.1 hall x (List.mem_of_getElem? hb)
          obtain ⟨y, rfl⟩ := Option.isSome_iff_exists.1 hxs
          rw [h4 i y hb]
          rfl
      · cases ha
    | _ => simp [act] at ha
  | fail =>
    cases pc <;> simp only [act, Option.some.injEq, reduceCtorEq] at ha
    all_goals subst ha; trivial
  | copy i =>
    cases pc with
    | mapped ino buf =>
      simp only [act, copyByte] at ha
      obtain ⟨f, h1, h2, h3, h4⟩ := hi
      simp only at h1
      rw [h1] at ha
      cases hb : buf[i]? with
      | none => rw [hb] at ha; simp at ha
      | some o =>
        rw [hb] at ha
        cases o with
        | some x => simp at ha
        | none =>
          have hlt := (List.getElem?_eq_some_iff.1 hb).1
          have hp : i / pageSize * pageSize < f.data.length := by
            have := Nat.div_mul_le_self i pageSize
            omega
          simp only [if_pos hp, Option.map_some, Option.some.injEq] at ha
          subst ha
          refine ⟨f, h1, h2.snoc _, by simpa using h3, fun j b hj => ?_⟩
          rw [List.getElem?_set] at hj
          by_cases hij : i = j
          · subst hij
            simp only [if_true, hlt, Option.some.injEq] at hj
            rw [← hj, List.getD_eq_getElem?_getD, List.getElem?_eq_getElem (by omega)]
            rfl
          · rw [if_neg hij] at hj
            exact h4 j b hj
    | _ => simp [act] at ha

theorem invR {p : P} {fs : FS P} (hr : Regular fs) {as : List (Act P)} (hg : ∀ a ∈ as, replacing a) {s : St P}
    (hs : exec p ⟨fs, .start⟩ as = some s) : InvR p fs as s := by
  revert s hg
  induction as using List.reverseRecOn with
  | nil =>
    intro _ s hs
    cases hs
    trivial
  | append_singleton bs a ih =>
    intro hg s hs
    have hs' := hs
    rw [exec_snoc] at hs'
    obtain ⟨t, ht, ha⟩ := Option.bind_eq_some_iff.1 hs'
    have hb : ∀ x ∈ bs, replacing x := fun x hx => hg x (by simp [hx])
    exact invR_step ht (invG hr (fun x hx => replacing_growing (hb x hx)) ht).1 (ih hb ht) (hg a (by simp)) ha

theorem exec_append (p : P) (s : St P) (as bs : List (Act P)) : exec p s (as ++ bs) = (exec p s as).bind fun t => exec p t bs := by
  induction as generalizing s with
  | nil => simp [exec]
  | cons b bs ih => simp only [List.cons_append, exec, Option.bind_assoc, ih]

/-- Bytes copied one after the other. -/
theorem copy_all (p : P) (fs : FS P) (ino : Nat) (data : List UInt8) (h2 : fs.files[ino]? = some ⟨data, true⟩) : ∀ m k, k + m = data.length →
    exec p ⟨fs, .mapped ino ((data.take k).map some ++ List.replicate m none)⟩ ((List.range' k m).map Act.copy) =
      some ⟨fs, .mapped ino (data.map some)⟩ := by
  intro m
  induction m with
  | zero =>
    intro k hk
    simp only [Nat.add_zero] at hk
    simp [exec, hk]
  | succ m ih =>
    intro k hk
    have hl : ((data.take k).map some).length = k := by simp; omega
    have hkd : k < data.length := by omega
    have hb : ((data.take k).map some ++ List.replicate (m + 1) none)[k]? = some none := by
      rw [List.getElem?_append_right (by omega), hl]
      simp
    have hp : k / pageSize * pageSize < data.length := by
      have := Nat.div_mul_le_self k pageSize
      omega
    have hset : ((data.take k).map some ++ List.replicate (m + 1) none).set k (some (data.getD k 0)) =
        (data.take (k + 1)).map some ++ List.replicate m none := by
      rw [List.set_append_right _ _ (by omega), hl, Nat.sub_self, List.replicate_succ, List.set_cons_zero,
        List.getD_eq_getElem?_getD, List.getElem?_eq_getElem hkd, List.take_succ_eq_append_getElem hkd]
      simp only [List.map_append, List.map_cons, List.map_nil, List.append_assoc, List.cons_append, List.nil_append, Option.getD_some]
    rw [List.range'_succ, List.map_cons, exec]
    simp only [act, copyByte, h2, hb, if_pos hp, Option.map_some, Option.bind_some, hset]
    exact ih (k + 1) (by omega)

end Gofer.ReadFile
