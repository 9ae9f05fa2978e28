import Verif.Model.MmapAgain
import Verif.Proof.Mmap

/-! # A file that is mapped more than once: lemmas -/
namespace Gofer.Mmap
open Gofer.Spec.Mmap

/-! ### One after another -/

def flat (log : List Entry) : List UInt8 := (log.map (·.data)).flatten

theorem flat_len (log : List Entry) : (flat log).length = (log.map fun e => e.data.length).sum := by
  simp [flat, List.length_flatten, List.map_map, Function.comp_def]

theorem btb_append {o : Nat} {l l' : List Entry} (h : BackToBack o l) (h' : BackToBack (o + (flat l).length) l') : BackToBack o (l ++ l') := by
  induction l generalizing o with
  | nil => simpa [flat] using h'
  | cons e l ih =>
    refine ⟨h.1, ih h.2 ?_⟩
    have : o + e.data.length + (flat l).length = o + (flat (e :: l)).length := by simp [flat]; omega
    rw [this]; exact h'

theorem btb_inside {o : Nat} {l : List Entry} (h : BackToBack o l) : ∀ e ∈ l, o ≤ e.start ∧ e.start + e.data.length ≤ o + (flat l).length := by
  induction l generalizing o with
  | nil => simp
  | cons f l ih =>
    intro e he
    have hl : (flat (f :: l)).length = f.data.length + (flat l).length := by simp [flat]
    rcases List.mem_cons.1 he with rfl | he
    · rw [h.1]; omega
    · have := ih h.2 e he
      omega

theorem btb_after {o : Nat} {l : List Entry} (h : BackToBack o l) : after o l = o + (flat l).length := by
  induction l generalizing o with
  | nil => simp [after, flat]
  | cons e l ih =>
    have h1 := ih h.2
    have hl : (flat (e :: l)).length = e.data.length + (flat l).length := by simp [flat]
    unfold after at h1 ⊢
    rw [List.foldl_cons, h.1, Nat.max_eq_right (by omega), h1]
    omega

theorem btb_data {o : Nat} {l : List Entry} {m : List UInt8} (h : BackToBack o l)
    (hm : ∀ e ∈ l, ∀ k, k < e.data.length → m[e.start + k]? = e.data[k]?) : ∀ k, k < (flat l).length → m[o + k]? = (flat l)[k]? := by
  induction l generalizing o with
  | nil => intro k hk; simp [flat] at hk
  | cons e l ih =>
    intro k hk
    have hf : flat (e :: l) = e.data ++ flat l := by simp [flat]
    rw [hf] at hk ⊢
    rw [List.length_append] at hk
    by_cases hk' : k < e.data.length
    · rw [List.getElem?_append_left hk', ← hm e (by simp) k hk', h.1]
    · rw [List.getElem?_append_right (by omega), ← ih h.2 (fun f hf => hm f (by simp [hf])) (k - e.data.length) (by omega)]
      congr 1
      omega

theorem over_over (m : List UInt8) (o : Nat) (d d' : List UInt8) (h : o + d.length + d'.length ≤ m.length) :
    over (over m o d) (o + d.length) d' = over m o (d ++ d') := by
  have hl : (over m o d).length = m.length := length_over m o d (by omega)
  apply List.ext_getElem?
  intro k
  rw [getElem?_over _ _ _ (by rw [hl]; exact h), getElem?_over _ _ _ (by omega), getElem?_over _ _ _ (by rw [List.length_append]; omega), List.length_append]
  by_cases h1 : k < o
  · rw [if_neg (by omega), if_neg (by omega), if_neg (by omega)]
  · by_cases h2 : k < o + d.length
    · rw [if_neg (by omega), if_pos (by omega), if_pos (by omega), List.getElem?_append_left (by omega)]
    · by_cases h3 : k < o + d.length + d'.length
      · rw [if_pos (by omega), if_pos (by omega), List.getElem?_append_right (by omega)]
        congr 1
        omega
      · rw [if_neg (by omega), if_neg (by omega), if_neg (by omega)]

theorem over_nil (m : List UInt8) (o : Nat) : over m o [] = m := by simp [over]

theorem newMMAP_iff {file : List UInt8} (hf : file.length < maxLen) {o : Nat} (ho : o ≤ file.length) :
    newMMAP file (BitVec.ofNat 64 o) = if o < file.length then some ⟨BitVec.ofNat 64 o, file, file, []⟩ else none := by
  unfold maxLen at hf
  unfold newMMAP
  have e : (BitVec.ofNat 64 file.length).sle (BitVec.ofNat 64 o) = true ↔ file.length ≤ o := by
    rw [sle_iff, toInt_ofNat_lt hf, toInt_ofNat_lt (by omega)]
    omega
  by_cases h0 : file.length = 0
  · rw [if_pos h0, if_neg (by omega)]
  · rw [if_neg h0]
    by_cases h1 : file.length ≤ o
    · rw [if_pos (e.2 h1), if_neg (by omega)]
    · rw [if_neg (by rw [e]; exact h1), if_pos (by omega)]

/-- One session. -/
theorem session_eq {page : Nat} {file : List UInt8} {o : Nat} {as : List Act} {s0 s : St} (hf : file.length < maxLen) (ho : o ≤ file.length)
    (hn : newMMAP file (BitVec.ofNat 64 o) = some s0) (he : exec page s0 as = some s) (hw : ∀ a ∈ as, NotWriteAt a)
    (hr : ∀ e ∈ s.log, e.returned = true) :
    BackToBack o s.log ∧ o + (flat s.log).length ≤ file.length ∧ s.mem = over file o (flat s.log) := by
  have hot : (BitVec.ofNat 64 o).toNat = o := by
    unfold maxLen at hf
    rw [BitVec.toNat_ofNat]
    exact Nat.mod_eq_of_lt (by omega)
  have hoi : (BitVec.ofNat 64 o).toInt = o := toInt_ofNat_lt (by unfold maxLen at hf; omega)
  have hs0 : s0 = ⟨BitVec.ofNat 64 o, file, file, []⟩ := by
    rw [newMMAP_iff hf ho] at hn
    split at hn
    · simpa using hn.symm
    · cases hn
  have i0 : Inv file s0 := inv_init hf hn (by rw [hoi]; omega)
  have a0 : AInv o s0 := by
    subst hs0
    exact ⟨by simp, trivial, by simpa using hot⟩
  have hi := inv_exec hf i0 he
  have ha := ainv_exec hf i0 a0 hw he
  have hle : o + (flat s.log).length ≤ file.length := by
    have h1 := ha.off
    have h2 := hi.off
    rw [flat_len]
    omega
  refine ⟨ha.btb, hle, ?_⟩
  have alone : ∀ (i : Nat) (e : Entry), s.log[i]? = some e → Alone s.log i e := by
    intro i e hie j f hj hf a h1 h2
    simp only [In] at h1 h2
    rcases Nat.lt_or_gt_of_ne hj with hlt | hlt
    · have := hi.order j i f e hlt hf hie (ha.all e (List.mem_of_getElem? hie)); omega
    · have := hi.order i j e f hlt hie hf (ha.all f (List.mem_of_getElem? hf)); omega
  have hd := btb_data (m := s.mem) ha.btb (by
    intro e hm k hk
    obtain ⟨i, hie⟩ := List.mem_iff_getElem?.1 hm
    exact hi.data i e hie (alone i e hie) k (by rw [hi.ret e hm (hr e hm)]; exact hk))
  apply List.ext_getElem?
  intro k
  rw [getElem?_over _ _ _ hle]
  split
  · rename_i hk
    have := hd (k - o) (by omega)
    rw [← this]
    congr 1
    omega
  · rename_i hk
    refine (hi.frame k ?_).1
    intro e hm hin
    have := btb_inside ha.btb e hm
    simp only [In] at hin
    omega

theorem sessions_eq {page : Nat} {file file' : List UInt8} {o o' : Nat} {ass : List (List Act)} {log : List Entry} (hf : file.length < maxLen)
    (ho : o ≤ file.length) (hw : ∀ as ∈ ass, ∀ a ∈ as, NotWriteAt a) (h : sessions page file o ass = some (log, file', o')) :
    (∀ e ∈ log, e.returned = true) ∧ BackToBack o log ∧ o' = o + (flat log).length ∧ o' ≤ file.length ∧ file' = over file o (flat log) := by
  induction ass generalizing file o log file' o' with
  | nil =>
    cases h
    exact ⟨by simp, trivial, by simp [flat], ho, (over_nil _ _).symm⟩
  | cons as ass ih =>
    rw [sessions] at h
    obtain ⟨s0, h0, h⟩ := Option.bind_eq_some_iff.1 h
    obtain ⟨s, hs, h⟩ := Option.bind_eq_some_iff.1 h
    split at h
    · rename_i hr
      have hr' : ∀ e ∈ s.log, e.returned = true := by simpa using hr
      obtain ⟨⟨l, f, o2⟩, hrest, h⟩ := Option.map_eq_some_iff.1 h
      cases h
      obtain ⟨b, hle, hm⟩ := session_eq hf ho h0 hs (hw as (by simp)) hr'
      have hml : s.mem.length = file.length := by rw [hm]; exact length_over _ _ _ hle
      rw [btb_after b] at hrest
      obtain ⟨r1, r2, r3, r4, r5⟩ := ih (by rw [hml]; exact hf) (by rw [hml]; exact hle) (fun as' h' => hw as' (by simp [h'])) hrest
      have hfl : flat (s.log ++ l) = flat s.log ++ flat l := by simp [flat]
      rw [hml] at r4
      refine ⟨?_, btb_append b r2, ?_, r4, ?_⟩
      · intro e he
        rcases List.mem_append.1 he with h | h
        · exact hr' e h
        · exact r1 e h
      · rw [hfl, List.length_append]; omega
      · rw [r5, hm, hfl, over_over]
        omega
    · cases h

/-! ### At the same time -/

/-- An entry as one of a `WriteAt`. -/
def unA (e : Entry) : Entry := { e with append := false }
/-- All mappings as one, whose offset is the size of the file and whose calls are `WriteAt`s. -/
def asOne (s : Many) : St := ⟨BitVec.ofNat 64 s.mem.length, s.mem, s.disk, s.log.map unA⟩

def lowAct : Act → Bool
  | .append .. | .writeAt .. => false
  | _ => true

/-- The steps after the locked section do not use the offset and the kind of call. -/
theorem act_low (page : Nat) (s : St) (o : BitVec 64) (a : Act) (h : lowAct a = true) (t : St) (ht : act page s a = some t) :
    act page ⟨o, s.mem, s.disk, s.log.map unA⟩ a = some ⟨o, t.mem, t.disk, t.log.map unA⟩ ∧ t.offset = s.offset ∧ t.log.length = s.log.length ∧
      t.log.map (fun e => (e.start, e.data, e.append)) = s.log.map (fun e => (e.start, e.data, e.append)) := by
  cases a with
  | append sync bs => cases h
  | writeAt sync bs o => cases h
  | copy i =>
    simp only [act] at ht ⊢
    cases hi : s.log[i]? with
    | none => rw [hi] at ht; cases ht
    | some e =>
      rw [hi] at ht
      simp only at ht
      rw [List.getElem?_map, hi]
      simp only [Option.map_some, unA]
      cases hb : e.data[e.pos]? with
      | none => rw [hb] at ht; cases ht
      | some b =>
        rw [hb] at ht
        cases ht
        refine ⟨?_, rfl, by simp, ?_⟩
        · simp only [List.map_set]; rfl
        · exact map_set_same _ _ i e _ hi rfl
  | finish i =>
    simp only [act] at ht ⊢
    cases hi : s.log[i]? with
    | none => rw [hi] at ht; cases ht
    | some e =>
      rw [hi] at ht
      simp only at ht
      rw [List.getElem?_map, hi]
      simp only [Option.map_some, unA]
      split at ht
      · rename_i hc
        cases ht
        rw [if_pos hc]
        refine ⟨?_, rfl, by simp, ?_⟩
        · simp only [List.map_set]; rfl
        · exact map_set_same _ _ i e _ hi rfl
      · cases ht
  | msync i =>
    simp only [act] at ht ⊢
    cases hi : s.log[i]? with
    | none => rw [hi] at ht; cases ht
    | some e =>
      rw [hi] at ht
      simp only at ht
      rw [List.getElem?_map, hi]
      simp only [Option.map_some, unA]
      split at ht
      · rename_i hc
        rw [if_pos hc]
        cases hr : syncUnix page s.mem.length e.start e.data.length with
        | none => rw [hr] at ht; cases ht
        | some r =>
          rw [hr] at ht
          cases ht
          refine ⟨?_, rfl, by simp, ?_⟩
          · simp only [List.map_set]; rfl
          · exact map_set_same _ _ i e _ hi rfl
      · cases ht
  | writeback b =>
    simp only [act] at ht ⊢
    split at ht
    · rename_i hc
      cases ht
      rw [if_pos hc]
      exact ⟨rfl, rfl, rfl, rfl⟩
    · cases ht

/-- What holds for several mappings. -/
structure MInv (file : List UInt8) (s : Many) : Prop where
  inv : Inv file (asOne s)
  offs : ∀ (k : Nat) (o : BitVec 64), s.offs[k]? = some o → o.toNat ≤ file.length
  len : s.own.length = s.log.length
  below : ∀ (i k : Nat) (e : Entry) (o : BitVec 64), s.log[i]? = some e → s.own[i]? = some k → s.offs[k]? = some o → e.start + e.data.length ≤ o.toNat
  order : ∀ (i j k : Nat) (e f : Entry), i < j → s.log[i]? = some e → s.log[j]? = some f → s.own[i]? = some k → s.own[j]? = some k →
    f.append = true → e.start + e.data.length ≤ f.start

/-- A locked section: an error, a panic, or a region. -/
theorem begin_cases {file : List UInt8} {s : Many} {o : BitVec 64} (hf : file.length < maxLen) (hl : s.mem.length = file.length)
    (ho : o.toNat ≤ file.length) {page : Nat} {a : Act} (ha : lowAct a = false) {t : St} (ht : act page (s.one o) a = some t) :
    t.mem = s.mem ∧ t.disk = s.disk ∧ t.offset.toNat ≤ file.length ∧ o.toNat ≤ t.offset.toNat ∧
    (t.log = s.log ∨ ∃ n bs ap sy, t.log = s.log ++ [⟨n, bs, ap, sy, 0, false⟩] ∧ n + bs.length ≤ t.offset.toNat ∧ (ap = true → o.toNat ≤ n)) := by
  have hm : (s.one o).mem.length = file.length := hl
  cases a with
  | append sync bs =>
    simp only [act] at ht
    split at ht
    · rename_i hb
      cases ht
      rw [appendStart_eq (s.one o) bs (by rw [hm]; exact hf) hb (by rw [hm]; exact ho)]
      split
      · exact ⟨rfl, rfl, ho, Nat.le_refl _, .inl rfl⟩
      · rename_i hc
        rw [hm] at hc
        have e := add_toNat (s := s.one o) (bs := bs) (by rw [hm]; exact hf) (by rw [hm]; omega)
        refine ⟨rfl, rfl, ?_, ?_, .inr ⟨_, _, _, _, rfl, ?_, fun _ => Nat.le_refl _⟩⟩
        · show ((s.one o).offset + _).toNat ≤ _
          rw [e]; omega
        · show _ ≤ ((s.one o).offset + _).toNat
          rw [e]; show o.toNat ≤ o.toNat + _; omega
        · show _ ≤ ((s.one o).offset + _).toNat
          rw [e]
    · cases ht
  | writeAt sync bs w =>
    simp only [act] at ht
    split at ht
    · rename_i hb
      cases ht
      rw [writeAtStart_eq (s.one o) bs w (by rw [hm]; exact hf) hb (by rw [hm]; exact ho)]
      have hoo : (s.one o).offset = o := rfl
      -- the new offset
      have key : w.toInt + bs.length ≤ (s.one o).mem.length →
          (if (o.toNat : Int) < w.toInt + bs.length then w + BitVec.ofNat 64 bs.length else o).toNat ≤ file.length ∧
          o.toNat ≤ (if (o.toNat : Int) < w.toInt + bs.length then w + BitVec.ofNat 64 bs.length else o).toNat := by
        intro h1
        have i : Inv file ⟨o, file, file, []⟩ := ⟨rfl, rfl, ho, by simp, by simp, by simp, by simp, by simp, by simp, by simp⟩
        exact off_le i hf w bs.length (by rw [hm] at h1; exact h1) hb
      split
      · exact ⟨rfl, rfl, ho, Nat.le_refl _, .inl rfl⟩
      · split
        · exact ⟨rfl, rfl, ho, Nat.le_refl _, .inl rfl⟩
        · rename_i h1 h2
          obtain ⟨k1, k2⟩ := key (by omega)
          split
          · exact ⟨rfl, rfl, k1, k2, .inl rfl⟩
          · rename_i h3
            refine ⟨rfl, rfl, k1, k2, .inr ⟨_, _, _, _, rfl, ?_, fun h => by cases h⟩⟩
            show w.toNat + bs.length ≤ (if (o.toNat : Int) < w.toInt + bs.length then w + BitVec.ofNat 64 bs.length else o).toNat
            have hw := toNat_toInt (x := w) (by omega)
            split
            · rw [add_toNat' (n := file.length) hf (by omega) (by rw [hm] at h2; omega)]
            · omega
    · cases ht
  | _ => cases ha

theorem get_of_map {α β : Type} {f : α → β} {l l' : List α} (h : l'.map f = l.map f) {i : Nat} {x : α} (hx : l'[i]? = some x) :
    ∃ y, l[i]? = some y ∧ f y = f x := by
  have : (l'.map f)[i]? = some (f x) := by rw [List.getElem?_map, hx]; rfl
  rw [h, List.getElem?_map] at this
  exact Option.map_eq_some_iff.1 this

theorem minv_act {file : List UInt8} (hf : file.length < maxLen) {page : Nat} {s t : Many} {k : Nat} {a : Act} (h : MInv file s)
    (ht : actMany page s k a = some t) : MInv file t := by
  obtain ⟨o, ho, h2⟩ := Option.bind_eq_some_iff.1 ht
  obtain ⟨u, hu, rfl⟩ := Option.map_eq_some_iff.1 h2
  have hk : k < s.offs.length := (List.getElem?_eq_some_iff.1 ho).1
  have hml : s.mem.length = file.length := h.inv.len
  have holt := h.offs k o ho
  cases ha : lowAct a
  · obtain ⟨m1, m2, m3, m4, m5⟩ := begin_cases hf hml holt ha hu
    have offs' : ∀ (j : Nat) (o' : BitVec 64), (s.offs.set k u.offset)[j]? = some o' → o'.toNat ≤ file.length := by
      intro j o' hj
      by_cases e : k = j
      · subst e
        rw [List.getElem?_set_self hk] at hj
        cases hj
        exact m3
      · rw [List.getElem?_set_ne e] at hj
        exact h.offs j o' hj
    -- an offset does not become smaller
    have mono : ∀ (j : Nat) (o' : BitVec 64), (s.offs.set k u.offset)[j]? = some o' → ∃ o'', s.offs[j]? = some o'' ∧ o''.toNat ≤ o'.toNat := by
      intro j o' hj
      by_cases e : k = j
      · subst e
        rw [List.getElem?_set_self hk] at hj
        cases hj
        exact ⟨o, ho, m4⟩
      · rw [List.getElem?_set_ne e] at hj
        exact ⟨o', hj, Nat.le_refl _⟩
    rcases m5 with m5 | ⟨n, bs, ap, sy, m5, m6, m7⟩
    · rw [m5, m1, m2]
      simp only [Nat.sub_self, List.replicate_zero, List.append_nil]
      refine ⟨h.inv, offs', h.len, ?_, h.order⟩
      intro i j e o' hi hj ho'
      obtain ⟨o'', h1, h2⟩ := mono j o' ho'
      exact Nat.le_trans (h.below i j e o'' hi hj h1) h2
    · rw [m5, m1, m2]
      have hrep : List.replicate ((s.log ++ [(⟨n, bs, ap, sy, 0, false⟩ : Entry)]).length - s.log.length) k = [k] := by simp
      rw [hrep]
      have getL : ∀ (i : Nat) (e : Entry), (s.log ++ [(⟨n, bs, ap, sy, 0, false⟩ : Entry)])[i]? = some e →
          s.log[i]? = some e ∨ (i = s.log.length ∧ e = ⟨n, bs, ap, sy, 0, false⟩) := by
        intro i e hi
        rw [List.getElem?_append] at hi
        split at hi
        · exact .inl hi
        · rename_i hge
          rw [List.getElem?_singleton] at hi
          split at hi <;> cases hi
          exact .inr ⟨by omega, rfl⟩
      have getO : ∀ (i j : Nat), (s.own ++ [k])[i]? = some j → (i < s.log.length → s.own[i]? = some j) ∧ (i = s.log.length → j = k) := by
        intro i j hi
        rw [List.getElem?_append, h.len] at hi
        split at hi
        · exact ⟨fun _ => hi, fun e => by omega⟩
        · rw [List.getElem?_singleton] at hi
          split at hi <;> cases hi
          exact ⟨fun e => by omega, fun _ => rfl⟩
      have ltL : ∀ {i : Nat} {e : Entry}, s.log[i]? = some e → i < s.log.length := fun hi => (List.getElem?_eq_some_iff.1 hi).1
      refine ⟨?_, offs', by simp [h.len], ?_, ?_⟩
      · have hst : (BitVec.ofNat 64 s.mem.length).toNat = file.length := by
          unfold maxLen at hf
          rw [BitVec.toNat_ofNat, hml]
          exact Nat.mod_eq_of_lt (by omega)
        have := inv_push h.inv n bs false sy (BitVec.ofNat 64 s.mem.length) (by omega) (Nat.le_refl _) (by omega) (fun e => by cases e)
        unfold asOne
        rw [List.map_append]
        exact this
      · intro i j e o' hi hj ho'
        rcases getL i e hi with hi | ⟨rfl, rfl⟩
        · obtain ⟨o'', h1, h2⟩ := mono j o' ho'
          exact Nat.le_trans (h.below i j e o'' hi ((getO i j hj).1 (ltL hi)) h1) h2
        · have := (getO _ j hj).2 rfl
          subst this
          simp only [List.getElem?_set_self hk, Option.some.injEq] at ho'
          rw [← ho']
          exact m6
      · intro i j k' e f hij hi hj hoi hoj hap
        rcases getL j f hj with hj | ⟨rfl, rfl⟩
        · have hjl := ltL hj
          rcases getL i e hi with hi | ⟨rfl, rfl⟩
          · exact h.order i j k' e f hij hi hj ((getO i k' hoi).1 (by omega)) ((getO j k' hoj).1 hjl) hap
          · omega
        · have := (getO _ k' hoj).2 rfl
          subst this
          rcases getL i e hi with hi | ⟨rfl, rfl⟩
          · exact Nat.le_trans (h.below i _ e o hi ((getO i _ hoi).1 hij) ho) (m7 hap)
          · omega
  · obtain ⟨l1, l2, l3, l4⟩ := act_low page (s.one o) (BitVec.ofNat 64 s.mem.length) a ha u hu
    have hu2 : u.offset = o := l2
    have e1 : s.offs.set k u.offset = s.offs := by
      rw [hu2]
      obtain ⟨hk', he⟩ := List.getElem?_eq_some_iff.1 ho
      rw [← he]
      exact List.set_getElem_self hk'
    have e2 : u.log.length - s.log.length = 0 := by
      have : u.log.length = s.log.length := l3
      omega
    rw [e1, e2, List.replicate_zero, List.append_nil]
    have hi := inv_act hf h.inv l1
    have hul : u.mem.length = s.mem.length := by
      have := hi.len
      simp only at this
      omega
    have l4' : u.log.map (fun e => (e.start, e.data, e.append)) = s.log.map (fun e => (e.start, e.data, e.append)) := l4
    refine ⟨?_, h.offs, by rw [h.len]; exact l3.symm, ?_, ?_⟩
    · unfold asOne
      rw [hul]
      exact hi
    · intro i j e o' hie hj ho'
      obtain ⟨e', he', heq⟩ := get_of_map l4' hie
      simp only [Prod.mk.injEq] at heq
      rw [← heq.1, ← heq.2.1]
      exact h.below i j e' o' he' hj ho'
    · intro i j k' e f hij hie hjf hoi hoj hap
      obtain ⟨e', he', heq⟩ := get_of_map l4' hie
      obtain ⟨f', hf', hfq⟩ := get_of_map l4' hjf
      simp only [Prod.mk.injEq] at heq hfq
      rw [← heq.1, ← heq.2.1, ← hfq.1]
      exact h.order i j k' e' f' hij he' hf' hoi hoj (by rw [hfq.2.2]; exact hap)

theorem minv_exec {file : List UInt8} (hf : file.length < maxLen) {page : Nat} {s t : Many} {as : List (Nat × Act)} (h : MInv file s)
    (ht : execMany page s as = some t) : MInv file t := by
  induction as generalizing s with
  | nil => cases ht; exact h
  | cons a as ih =>
    obtain ⟨k, a⟩ := a
    obtain ⟨u, hu, h2⟩ := Option.bind_eq_some_iff.1 ht
    exact ih (minv_act hf h hu) h2

theorem minv_new {file : List UInt8} (hf : file.length < maxLen) {os : List (BitVec 64)} (hos : ∀ o ∈ os, 0 ≤ o.toInt) {s : Many}
    (hn : newMany file os = some s) : MInv file s := by
  unfold newMany at hn
  split at hn
  · rename_i hall
    cases hn
    have hst : (BitVec.ofNat 64 file.length).toNat = file.length := by
      unfold maxLen at hf
      rw [BitVec.toNat_ofNat]
      exact Nat.mod_eq_of_lt (by omega)
    refine ⟨⟨rfl, rfl, by show (BitVec.ofNat 64 file.length).toNat ≤ _; omega, by simp [asOne], by simp [asOne], by simp [asOne], by simp [asOne], by simp [asOne], by simp [asOne], by simp [asOne]⟩, ?_, rfl, by simp, by simp⟩
    intro k o ho
    have hm := List.mem_of_getElem? ho
    rw [List.all_eq_true] at hall
    obtain ⟨s0, hs0⟩ := Option.isSome_iff_exists.1 (hall o hm)
    have := (inv_init hf hs0 (hos o hm)).off
    have e : s0.offset = o := by
      unfold newMMAP at hs0
      split at hs0
      · cases hs0
      · split at hs0 <;> cases hs0
        rfl
    rw [e] at this
    exact this
  · cases hn

/-- The data of a call. -/
theorem minv_data {file : List UInt8} {s : Many} (h : MInv file s) {i : Nat} {e : Entry} (hi : s.log[i]? = some e) (hr : e.returned = true)
    (hal : Alone s.log i e) : Holds s.mem e.start e.data := by
  have hi' : (asOne s).log[i]? = some (unA e) := by simp [asOne, hi]
  have hp : e.pos = e.data.length := h.inv.ret (unA e) (List.mem_of_getElem? hi') hr
  apply holds_of
  intro k hk
  refine h.inv.data i (unA e) hi' ?_ k (by show k < e.pos; omega)
  intro j f hj hf
  simp only [asOne, List.getElem?_map] at hf
  obtain ⟨f', hf', rfl⟩ := Option.map_eq_some_iff.1 hf
  exact hal j f' hj hf'

end Gofer.Mmap
