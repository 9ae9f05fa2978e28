import Verif.Proof.ProtoLevels

namespace Gofer.Proto
open Gofer.Spec.Proto

variable {W W' : Type} (sub : Nat → Option W' → Bytes → Option W')

/-! ### messages whose strings are UTF-8 are written completely -/

theorem putVal_ok {encC : Nat → W → Bytes × Bool} {full : Nat → W → Bytes} {good : Nat → W → Prop}
    (henc : ∀ t w, good t w → (encC t w).2 = true → (encC t w).1 = full t w) {f : Field} {v : Val W}
    (hv : ValOk good f.kind v) (h : (putVal true (fun t w => (full t w).length) encC f v).2 = true) :
    (putVal true (fun t w => (full t w).length) encC f v).1 = chunk (recVal full f v) := by
  have h2 := congrArg Prod.fst (putVal_chunk full f v hv)
  simp only at h2
  rw [← h2]
  cases v with
  | num x => rfl
  | str b => rfl
  | msg w =>
    cases hk : f.kind <;> simp only [hk, ValOk] at hv
    rename_i t
    simp only [putVal, hk] at h ⊢
    rw [henc t w hv h]

theorem seq_ok (l : List (Bytes × Bool)) (h : (seq l).2 = true) : ∀ p ∈ l, p.2 = true := by
  induction l with
  | nil => simp
  | cons p l ih =>
    obtain ⟨b, ok⟩ := p
    cases ok with
    | false => simp [seq] at h
    | true =>
      simp only [seq] at h
      intro q hq
      rcases List.mem_cons.mp hq with rfl | hq
      · rfl
      · exact ih h q hq

theorem seq_bad (l : List (Bytes × Bool)) (h : (seq l).2 = false) : ∃ pre p post, l = pre ++ (p, false) :: post ∧
    (∀ q ∈ pre, q.2 = true) ∧ (seq l).1 = (pre.map (·.1)).flatten ++ p := by
  induction l with
  | nil => simp [seq] at h
  | cons p l ih =>
    obtain ⟨b, ok⟩ := p
    cases ok with
    | false => exact ⟨[], b, l, rfl, by simp, by simp [seq]⟩
    | true =>
      simp only [seq] at h
      obtain ⟨pre, p, post, rfl, h2, h3⟩ := ih h
      refine ⟨(b, true) :: pre, p, post, rfl, ?_, ?_⟩
      · intro q hq
        rcases List.mem_cons.mp hq with rfl | hq
        · rfl
        · exact h2 q hq
      · rw [seq, h3]; simp

theorem putField_single (check : Bool) (sizeW : Nat → W → Nat) (encC : Nat → W → Bytes × Bool) (f : Field)
    (vs : List (Val W)) (h : f.card ≠ .packed) :
    putField check sizeW encC f vs = seq (vs.map (putVal check sizeW encC f)) := by
  unfold putField
  split
  · rename_i e; exact absurd e h
  · rfl

theorem putField_packed (check : Bool) (sizeW : Nat → W → Nat) (encC : Nat → W → Bytes × Bool) (f : Field)
    (vs : List (Val W)) (h : f.card = .packed) : putField check sizeW encC f vs = (putPacked f vs, true) := by
  simp [putField, h]

theorem putField_ok {encC : Nat → W → Bytes × Bool} {full : Nat → W → Bytes} {good : Nat → W → Prop}
    (henc : ∀ t w, good t w → (encC t w).2 = true → (encC t w).1 = full t w) {f : Field} {vs : List (Val W)}
    (hv : ValsOk good f vs) (h : (putField true (fun t w => (full t w).length) encC f vs).2 = true) :
    (putField true (fun t w => (full t w).length) encC f vs).1 = ((recsOf full f vs).map chunk).flatten := by
  have h2 := congrArg Prod.fst (putField_chunk full f vs hv)
  simp only at h2
  by_cases hp : f.card = .packed
  · rw [putField_packed _ _ _ _ _ hp] at h2 ⊢
    exact h2
  · rw [putField_single _ _ _ _ _ hp] at h ⊢
    have h3 := seq_ok _ h
    rw [seq_true _ h3, recsOf_single full f vs hp]
    simp only [List.map_map]
    congr 1
    apply List.map_congr_left
    intro v hv'
    exact putVal_ok henc (hv.1 v hv') (h3 _ (List.mem_map_of_mem hv'))

theorem putVal_texts {encC : Nat → W → Bytes × Bool} {good : Nat → W → Prop}
    (henc : ∀ t w, good t w → (encC t w).2 = true) (sizeW : Nat → W → Nat) {f : Field} {v : Val W}
    (hv : ValOk good f.kind v) (ht : ∀ b, f.kind = .string → v = .str b → valid b = true) :
    (putVal true sizeW encC f v).2 = true := by
  cases v with
  | num x => rfl
  | str b =>
    simp only [putVal]
    cases hk : f.kind <;> simp
    exact ht b hk rfl
  | msg w =>
    cases hk : f.kind <;> simp only [hk, ValOk] at hv
    simp only [putVal, hk]
    exact henc _ w hv

theorem putField_texts {encC : Nat → W → Bytes × Bool} {good : Nat → W → Prop}
    (henc : ∀ t w, good t w → (encC t w).2 = true) (sizeW : Nat → W → Nat) {f : Field} {vs : List (Val W)}
    (hv : VG true good f vs) : (putField true sizeW encC f vs).2 = true := by
  by_cases hp : f.card = .packed
  · rw [putField_packed _ _ _ _ _ hp]
  · rw [putField_single _ _ _ _ _ hp]
    apply seq_all
    intro p hp
    obtain ⟨v, hv', rfl⟩ := List.mem_map.mp hp
    exact putVal_texts henc sizeW (hv.1.1 v hv') (fun b hk e => hv.2 rfl b hk (e ▸ hv'))

theorem putBody_texts {encC : Nat → W → Bytes × Bool} {good : Nat → W → Prop}
    (henc : ∀ t w, good t w → (encC t w).2 = true) (sizeW : Nat → W → Nat) {fs : List Field} {m : Body W}
    (h : List.Forall₂ (VG true good) fs m.fields) : (putBody true sizeW encC fs m).2 = true := by
  apply seq_all
  intro p hp
  rcases List.mem_append.mp hp with hp | hp
  · obtain ⟨f, v, hz, rfl⟩ := mem_zipWith hp
    exact putField_texts henc sizeW (forall₂_zip h _ hz)
  · simp at hp; subst hp; rfl

theorem zipWith_ok {encC : Nat → W → Bytes × Bool} {full : Nat → W → Bytes} {good : Nat → W → Prop}
    (henc : ∀ t w, good t w → (encC t w).2 = true → (encC t w).1 = full t w) {fs : List Field}
    {ys : List (List (Val W))} (h : List.Forall₂ (ValsOk good) fs ys)
    (hok : ∀ p ∈ List.zipWith (putField true (fun t w => (full t w).length) encC) fs ys, p.2 = true) :
    ((List.zipWith (putField true (fun t w => (full t w).length) encC) fs ys).map (·.1)).flatten =
      ((allRecs full fs ys).map chunk).flatten := by
  induction h with
  | nil => rfl
  | @cons f y fs ys hv _ ih =>
    rw [List.zipWith_cons_cons] at hok ⊢
    simp only [List.map_cons, List.flatten_cons, allRecs, List.map_append, List.flatten_append]
    rw [putField_ok henc hv (hok _ (by simp)), ih (fun p hp => hok p (List.mem_cons_of_mem _ hp))]

theorem putBody_ok {encC : Nat → W → Bytes × Bool} {full : Nat → W → Bytes} {good : Nat → W → Prop}
    (henc : ∀ t w, good t w → (encC t w).2 = true → (encC t w).1 = full t w) {fs : List Field} {m : Body W}
    (h : List.Forall₂ (ValsOk good) fs m.fields)
    (hok : (putBody true (fun t w => (full t w).length) encC fs m).2 = true) :
    (putBody true (fun t w => (full t w).length) encC fs m).1 = bodyFull full fs m := by
  have h3 := seq_ok _ hok
  rw [putBody, seq_true _ h3, bodyFull]
  simp only [List.map_append, List.flatten_append, List.map_cons, List.map_nil, List.flatten_cons, List.flatten_nil,
    List.append_nil]
  rw [zipWith_ok henc h (fun p hp => h3 p (List.mem_append_left _ hp))]

theorem enc_ok (T : Schema) (tx : Bool) (d : Nat) : ∀ t (m : Msg d), Fit T tx d t m → (enc T d true t m).2 = true →
    (enc T d true t m).1 = fullM T d t m := by
  induction d with
  | zero =>
    intro t m h hok
    rw [full_zero T tx t m h]
    have e1 : (fun (_ : Nat) (e : Empty) => (nomatch e : Nat)) = fun t w => ((fun _ (e : Empty) => (nomatch e : Bytes)) t w).length := by
      funext _ e; exact nomatch e
    have := putBody_ok (good := fun _ (e : Empty) => nomatch e) (encC := fun _ (e : Empty) => nomatch e)
      (full := fun _ (e : Empty) => nomatch e) (fun t w => nomatch w) (h.1.imp (fun _ _ h => h.1))
    rw [← e1] at this
    exact this hok
  | succ d ih =>
    intro t m h hok
    rw [full_succ T tx d t m h]
    exact putBody_ok (good := Fit T tx d) (encC := enc T d true) (full := fullM T d) (fun t w hw hk => ih t w hw hk)
      (h.1.imp (fun _ _ h => h.1)) hok

theorem enc_texts (T : Schema) (d : Nat) : ∀ t (m : Msg d), Fit T true d t m → (enc T d true t m).2 = true := by
  induction d with
  | zero =>
    intro t m h
    exact putBody_texts (good := fun _ (e : Empty) => nomatch e) (fun t w => nomatch w) _ h.1
  | succ d ih =>
    intro t m h
    exact putBody_texts (good := Fit T true d) (fun t w hw => ih t w hw) _ h.1

theorem marshal_full (T : Schema) (d t : Nat) (m : Msg d) (h : Fit T true d t m) : marshal T d t m = fullM T d t m :=
  enc_ok T true d t m h (enc_texts T d t m h)

/-! ### messages with other strings -/

theorem texts_putVal {encC : Nat → W → Bytes × Bool} {good fit : Nat → W → Prop}
    (henc : ∀ t w, good t w → (encC t w).2 = true → fit t w) (sizeW : Nat → W → Nat) {f : Field} {v : Val W}
    (hv : ValOk good f.kind v) (h : (putVal true sizeW encC f v).2 = true) :
    ValOk fit f.kind v ∧ ∀ b, f.kind = .string → v = .str b → valid b = true := by
  cases v with
  | num x => exact ⟨ValOk_mono hv (by simp), by simp⟩
  | str b =>
    refine ⟨ValOk_mono hv (by simp), ?_⟩
    intro b' hk e
    simp only [Val.str.injEq] at e
    subst e
    simpa [putVal, hk] using h
  | msg w =>
    cases hk : f.kind <;> simp only [hk, ValOk] at hv
    simp only [putVal, hk] at h
    exact ⟨henc _ w hv h, by simp⟩

theorem texts_putField {encC : Nat → W → Bytes × Bool} {good fit : Nat → W → Prop}
    (henc : ∀ t w, good t w → (encC t w).2 = true → fit t w) (sizeW : Nat → W → Nat) {f : Field} (hf : f.Legal)
    {vs : List (Val W)} (hv : VG false good f vs) (h : (putField true sizeW encC f vs).2 = true) : VG true fit f vs := by
  by_cases hp : f.card = .packed
  · have hl := hf.2.2
    refine ⟨⟨fun v hv' => ValOk_mono (hv.1.1 v hv') (fun t w _ hk => ?_), hv.1.2⟩, fun _ b hk => ?_⟩
    · simp [hk, hp] at hl
    · simp [hk, hp] at hl
  · rw [putField_single _ _ _ _ _ hp] at h
    have h3 := seq_ok _ h
    exact ⟨⟨fun v hv' => (texts_putVal henc sizeW (hv.1.1 v hv') (h3 _ (List.mem_map_of_mem hv'))).1, hv.1.2⟩,
      fun _ b hk hb => (texts_putVal henc sizeW (hv.1.1 _ hb) (h3 _ (List.mem_map_of_mem hb))).2 b hk rfl⟩

theorem texts_putBody {encC : Nat → W → Bytes × Bool} {good fit : Nat → W → Prop}
    (henc : ∀ t w, good t w → (encC t w).2 = true → fit t w) (sizeW : Nat → W → Nat) {fs : List Field}
    (hf : ∀ f ∈ fs, f.Legal) {m : Body W} (hv : BodyFit false good fs m)
    (h : (putBody true sizeW encC fs m).2 = true) : BodyFit true fit fs m := by
  refine ⟨?_, hv.2⟩
  have h3 := seq_ok _ h
  have h4 : ∀ p ∈ List.zipWith (putField true sizeW encC) fs m.fields, p.2 = true :=
    fun p hp => h3 p (List.mem_append_left _ hp)
  have hv1 := hv.1
  generalize m.fields = ys at hv1 h4
  clear h h3 hv
  induction hv1 with
  | nil => exact .nil
  | @cons f y fs ys hv _ ih =>
    rw [List.zipWith_cons_cons] at h4
    exact .cons (texts_putField henc sizeW (hf f (by simp)) hv (h4 _ (by simp)))
      (ih (fun f hf' => hf f (List.mem_cons_of_mem _ hf')) (fun p hp => h4 p (List.mem_cons_of_mem _ hp)))

/-- No error: all strings are UTF-8. -/
theorem enc_fit (T : Schema) (hT : Legal T) (d : Nat) : ∀ t (m : Msg d), Fit T false d t m →
    (enc T d true t m).2 = true → Fit T true d t m := by
  induction d with
  | zero =>
    intro t m h hok
    exact texts_putBody (good := fun _ (e : Empty) => nomatch e) (fun t w => nomatch w) _ (hT t).2 h hok
  | succ d ih =>
    intro t m h hok
    exact texts_putBody (good := Fit T false d) (fun t w hw hk => ih t w hw hk) _ (hT t).2 h hok

theorem applyAt_error {fit : Nat → W' → Prop} {r : Rec} {f : Field} (fs : List Field)
    (hp : fs.Pairwise (fun f g => f.num < g.num)) (hf : f ∈ fs) (hn : f.num = r.num)
    (h : ∀ v, VG true fit f v → applyVal sub f r.wire v = .error) :
    ∀ (vs : List (List (Val W'))), List.Forall₂ (VG true fit) fs vs → applyAt sub fs vs r = .error := by
  induction fs with
  | nil => simp at hf
  | cons g fs ih =>
    intro vs hv
    obtain ⟨hp1, hp2⟩ := List.pairwise_cons.mp hp
    cases hv with
    | @cons _ v _ vs hv hvs =>
      rw [applyAt]
      rcases List.mem_cons.mp hf with rfl | hf
      · rw [if_pos hn, h v hv]; rfl
      · have := hp1 f hf
        rw [if_neg (by omega), ih hp2 hf vs hvs]; rfl

theorem applyAll_none {fit : Nat → W' → Prop} (hs : Keeps sub fit) {r : Rec} {f : Field} (fs : List Field)
    (hp : fs.Pairwise (fun f g => f.num < g.num)) (hf : f ∈ fs) (hn : f.num = r.num)
    (h : ∀ v, VG true fit f v → applyVal sub f r.wire v = .error) (rs : List Rec) (hr : r ∈ rs)
    (hok : ∀ r ∈ rs, RecOk r) : ∀ (m : Body W'), BodyFit true fit fs m → applyAll sub fs m rs = none := by
  induction rs with
  | nil => simp at hr
  | cons q rs ih =>
    intro m hm
    rw [applyAll]
    cases e : applyRec sub fs m q with
    | none => rfl
    | some m' =>
      simp only
      rcases List.mem_cons.mp hr with rfl | hr
      · rw [applyRec, applyAt_error sub fs hp hf hn h m.fields hm.1] at e
        simp at e
      · exact ih hr (fun r hr => hok r (List.mem_cons_of_mem _ hr)) m' (applyRec_fit sub hs (hok q (by simp)) hp hm e)

theorem bad_value {encC : Nat → W → Bytes × Bool} {full : Nat → W → Bytes} {good : Nat → W → Prop}
    {al : Nat → W' → Prop} (hs : Keeps sub al)
    (hlen : ∀ t w, good t w → (encC t w).1.length ≤ (full t w).length)
    (hbad : ∀ t o w, good t w → (encC t w).2 = false → (∀ w', o = some w' → al t w') → sub t o (encC t w).1 = none)
    {fs : List Field} (hp : fs.Pairwise (fun f g => f.num < g.num)) {f : Field} (hf : f ∈ fs) (hl : f.Legal)
    {v : Val W} (hv : ValOk good f.kind v) (hsm : (recVal full f v).raw.length < 2 ^ 64)
    (hb : (putVal true (fun t w => (full t w).length) encC f v).2 = false) (rs : List Rec) (hr : ∀ r ∈ rs, RecOk r)
    {x : Body W'} (hx : BodyFit true al fs x) :
    decBody sub fs x ((rs.map chunk).flatten ++ (putVal true (fun t w => (full t w).length) encC f v).1) = none := by
  -- a whole record that is refused
  have whole : ∀ r, RecOk r → f.num = r.num → (∀ v, VG true al f v → applyVal sub f r.wire v = .error) →
      decBody sub fs x ((rs.map chunk).flatten ++ chunk r) = none := by
    intro r hro hn h
    have e : (rs.map chunk).flatten ++ chunk r = ((rs ++ [r]).map chunk).flatten := by simp
    have hok : ∀ q ∈ rs ++ [r], RecOk q := by
      intro q hq
      rcases List.mem_append.mp hq with hq | hq
      · exact hr q hq
      · simp at hq; subst hq; exact hro
    rw [decBody, e, records_chunks' _ hok]
    exact applyAll_none sub hs fs hp hf hn h _ (by simp) hok x hx
  cases v with
  | num x => simp [putVal] at hb
  | str b =>
    simp only [putVal] at hb
    cases hk : f.kind <;> simp only [hk, ValOk] at hv <;> simp [hk] at hb
    have e := whole (recVal full f (.str b)) (recVal_ok full (good := good) f hl (.str b) (by rw [hk]; trivial) hsm) rfl ?_
    · simpa [putVal, chunk, recVal, Wire.type] using e
    · intro v _
      simp [applyVal, hk, recVal, hb]
  | msg w =>
    cases hk : f.kind <;> simp only [hk, ValOk] at hv
    rename_i t
    simp only [putVal, hk] at hb ⊢
    simp only [recVal, hk, List.length_append] at hsm
    have hle := hlen t w hv
    by_cases he : (encC t w).1.length = (full t w).length
    · have e := whole ⟨f.num, .bytes (encC t w).1, putVarint (encC t w).1.length ++ (encC t w).1⟩ ?_ rfl ?_
      · rw [← he]
        simpa [chunk, Wire.type] using e
      · exact ⟨hl.1, hl.2.1, by simp [Wire.type], fun z => takeValue_bytes _ _ z (by omega)⟩
      · intro v hv'
        have h1 := hbad t none w hv hb (by simp)
        have h2 := hbad t (held v) w hv hb (fun w' e => held_ok hv'.1 t hk w' e)
        simp only [applyVal, hk, h1, h2]
        split <;> rfl
    · have e1 : takeField (putTag f.num 2 ++ (putVarint (full t w).length ++ (encC t w).1)) = none := by
        have h1 : (8 * f.num + 2) / 8 = f.num := by omega
        have h2 : (8 * f.num + 2) % 8 = 2 := by omega
        have h29 := hl.2.1
        have h30 := hl.1
        rw [takeField, putTag, takeVarint_putVarint _ _ (by omega)]
        simp only [h1, h2]
        rw [if_neg (by omega)]
        have h3 : takeValue f.num 2 (putVarint (full t w).length ++ (encC t w).1) = none := by
          simp only [takeValue, takeScalar, takeVarint_putVarint _ (encC t w).1 (show (full t w).length < 2 ^ 64 by omega)]
          rw [if_neg (by omega), if_neg (by omega), if_neg (by omega), if_pos trivial, if_pos (by omega)]
        rw [h3]
      have e2 : records (putTag f.num 2 ++ (putVarint (full t w).length ++ (encC t w).1)) = none :=
        records_none (by simp [putTag, putVarint_ne_nil]) e1
      rw [decBody, records_chunks rs hr, e2]
      rfl

theorem zipWith_split {A B C : Type} {g : A → B → C} {R : A → B → Prop} {l : List A} {m : List B}
    (h : List.Forall₂ R l m) : ∀ {pre : List C} {c : C} {post : List C},
    List.zipWith g l m = pre ++ c :: post →
    ∃ l1 a l2 m1 b m2, l = l1 ++ a :: l2 ∧ m = m1 ++ b :: m2 ∧ l1.length = m1.length ∧
      pre = List.zipWith g l1 m1 ∧ c = g a b ∧ R a b ∧ List.Forall₂ R l1 m1 := by
  induction h with
  | nil => intro pre c post e; simp at e
  | @cons a b l m hr hrs ih =>
    intro pre c post e
    rw [List.zipWith_cons_cons] at e
    cases pre with
    | nil =>
      simp at e
      exact ⟨[], a, l, [], b, m, rfl, rfl, rfl, rfl, e.1.symm, hr, .nil⟩
    | cons p pre =>
      simp only [List.cons_append, List.cons.injEq] at e
      obtain ⟨l1, a', l2, m1, b', m2, rfl, rfl, h3, h4, h5, h6, h7⟩ := ih e.2
      refine ⟨a :: l1, a', l2, b :: m1, b', m2, rfl, rfl, by simp [h3], ?_, h5, h6, .cons hr h7⟩
      rw [List.zipWith_cons_cons, h4, e.1]

theorem allRecs_append (full : Nat → W → Bytes) : ∀ (l1 l2 : List Field) (m1 m2 : List (List (Val W))),
    l1.length = m1.length → allRecs full (l1 ++ l2) (m1 ++ m2) = allRecs full l1 m1 ++ allRecs full l2 m2 := by
  intro l1
  induction l1 with
  | nil =>
    intro l2 m1 m2 h
    have : m1 = [] := List.length_eq_zero_iff.mp (by simpa using h.symm)
    subst this
    simp [allRecs]
  | cons f l1 ih =>
    intro l2 m1 m2 h
    cases m1 with
    | nil => simp at h
    | cons v m1 => simp [allRecs, ih l2 m1 m2 (by simpa using h)]

theorem body_bad {encC : Nat → W → Bytes × Bool} {full : Nat → W → Bytes} {good : Nat → W → Prop}
    {al : Nat → W' → Prop} (hs : Keeps sub al)
    (henc : ∀ t w, good t w → (encC t w).2 = true → (encC t w).1 = full t w)
    (hlen : ∀ t w, good t w → (encC t w).1.length ≤ (full t w).length)
    (hbad : ∀ t o w, good t w → (encC t w).2 = false → (∀ w', o = some w' → al t w') → sub t o (encC t w).1 = none)
    {fs : List Field} (hp : fs.Pairwise (fun f g => f.num < g.num)) (hl : ∀ f ∈ fs, f.Legal) {y : Body W}
    (hy : List.Forall₂ (VG false good) fs y.fields)
    (hsm : ∀ r ∈ allRecs full fs y.fields, r.raw.length < 2 ^ 64)
    (hb : (putBody true (fun t w => (full t w).length) encC fs y).2 = false) {x : Body W'} (hx : BodyFit true al fs x) :
    decBody sub fs x (putBody true (fun t w => (full t w).length) encC fs y).1 = none := by
  obtain ⟨pre, p, post, e1, h2, h3⟩ := seq_bad _ hb
  -- the unknown bytes are not the bad piece
  have hz : ∃ post', List.zipWith (putField true (fun t w => (full t w).length) encC) fs y.fields = pre ++ (p, false) :: post' := by
    rcases List.eq_nil_or_concat post with rfl | ⟨q, c, rfl⟩
    · exfalso
      have := congrArg List.getLast? e1
      simp at this
    · have : List.zipWith (putField true (fun t w => (full t w).length) encC) fs y.fields ++ [(y.unknown, true)] =
          (pre ++ (p, false) :: q) ++ [c] := by rw [e1]; simp
      exact ⟨q, (List.append_inj' this rfl).1⟩
  obtain ⟨post', hz⟩ := hz
  obtain ⟨l1, f, l2, m1, v, m2, el, em, hlen1, h4, h5, h6, h7⟩ := zipWith_split hy hz
  have hmem : ∀ r ∈ allRecs full l1 m1, r ∈ allRecs full fs y.fields := by
    intro r hr
    rw [el, em, allRecs_append full _ _ _ _ hlen1]
    exact List.mem_append_left _ hr
  have hmem2 : ∀ r ∈ recsOf full f v, r ∈ allRecs full fs y.fields := by
    intro r hr
    rw [el, em, allRecs_append full _ _ _ _ hlen1]
    exact List.mem_append_right _ (List.mem_append_left _ hr)
  have hff : f ∈ fs := by rw [el]; simp
  have hlf := hl f hff
  have h7' : List.Forall₂ (ValsOk good) l1 m1 := h7.imp (fun _ _ h => h.1)
  have hok1 := allRecs_ok full l1 (fun g hg => hl g (by rw [el]; simp [hg])) m1 h7' (fun r hr => hsm r (hmem r hr))
  have hpre : (pre.map (·.1)).flatten = ((allRecs full l1 m1).map chunk).flatten := by
    rw [h4] at h2 ⊢
    exact zipWith_ok henc h7' h2
  -- within the field
  have hnp : f.card ≠ .packed := by
    intro e
    rw [putField_packed _ _ _ _ _ e] at h5
    simp at h5
  rw [putField_single _ _ _ _ _ hnp] at h5
  have hbf : (seq (v.map (putVal true (fun t w => (full t w).length) encC f))).2 = false := by rw [← h5]
  obtain ⟨pre2, p2, post2, e2, h8, h9⟩ := seq_bad _ hbf
  rw [← h5] at h9
  simp only at h9
  obtain ⟨va, vb, rfl, e3, e4⟩ := List.map_eq_append_iff.mp e2
  obtain ⟨vv, vc, rfl, e5, e6⟩ := List.map_eq_cons_iff.mp e4
  have hvv : ValOk good f.kind vv := h6.1.1 vv (by simp)
  have hva : ∀ a ∈ va, ValOk good f.kind a := fun a ha => h6.1.1 a (by simp [ha])
  have hpre2 : (pre2.map (·.1)).flatten = ((va.map (recVal full f)).map chunk).flatten := by
    rw [← e3, List.map_map, List.map_map]
    congr 1
    apply List.map_congr_left
    intro a ha
    exact putVal_ok henc (hva a ha) (h8 _ (by rw [← e3]; exact List.mem_map_of_mem ha))
  have hrec : ∀ a ∈ va ++ vv :: vc, (recVal full f a).raw.length < 2 ^ 64 := by
    intro a ha
    apply hsm _ (hmem2 _ _)
    rw [recsOf_single full f _ hnp]
    exact List.mem_map_of_mem ha
  have hok2 : ∀ r ∈ allRecs full l1 m1 ++ va.map (recVal full f), RecOk r := by
    intro r hr
    rcases List.mem_append.mp hr with hr | hr
    · exact hok1 r hr
    · obtain ⟨a, ha, rfl⟩ := List.mem_map.mp hr
      exact recVal_ok full f hlf a (hva a ha) (hrec a (by simp [ha]))
  have hfinal := bad_value sub hs hlen hbad hp hff hlf hvv (hrec vv (by simp)) (by rw [e5])
    (allRecs full l1 m1 ++ va.map (recVal full f)) hok2 hx
  rw [putBody, h3, h9, hpre, hpre2]
  rw [e5] at hfinal
  simpa using hfinal

theorem seq_length (l : List (Bytes × Bool)) : ∀ (l' : List (Bytes × Bool)), List.Forall₂ (fun p q => p.1.length ≤ q.1.length) l l' →
    (∀ q ∈ l', q.2 = true) → (seq l).1.length ≤ (seq l').1.length := by
  induction l with
  | nil => intro l' h _; cases h; simp [seq]
  | cons p l ih =>
    intro l' h hq
    cases h with
    | @cons _ q _ l' hpq hr =>
      obtain ⟨b, ok⟩ := p
      obtain ⟨b', ok'⟩ := q
      have : ok' = true := hq (b', ok') (by simp)
      subst this
      have := ih l' hr (fun q h => hq q (List.mem_cons_of_mem _ h))
      simp only at hpq
      cases ok <;> simp only [seq, List.length_append] <;> omega

theorem forall₂_map {A B C : Type} {R : B → C → Prop} (g : A → B) (g' : A → C) (l : List A)
    (h : ∀ a ∈ l, R (g a) (g' a)) : List.Forall₂ R (l.map g) (l.map g') := by
  induction l with
  | nil => exact .nil
  | cons a l ih => exact .cons (h a (by simp)) (ih (fun a ha => h a (List.mem_cons_of_mem _ ha)))

theorem forall₂_zipWith {A B C D : Type} {R : C → D → Prop} (g : A → B → C) (g' : A → B → D) (l : List A) :
    ∀ m : List B, (∀ a b, R (g a b) (g' a b)) → List.Forall₂ R (List.zipWith g l m) (List.zipWith g' l m) := by
  induction l with
  | nil => intro m _; exact .nil
  | cons a l ih =>
    intro m h
    cases m with
    | nil => exact .nil
    | cons b m => exact .cons (h a b) (ih m h)

theorem putBody_length (sizeW : Nat → W → Nat) (encC encF : Nat → W → Bytes × Bool)
    (hF : ∀ t w, (encF t w).2 = true) (h : ∀ t w, (encC t w).1.length ≤ (encF t w).1.length) (fs : List Field)
    (m : Body W) : (putBody true sizeW encC fs m).1.length ≤ (putBody false sizeW encF fs m).1.length := by
  unfold putBody
  apply seq_length
  · refine List.rel_append ?_ (.cons (Nat.le_refl _) .nil)
    apply forall₂_zipWith
    intro f vs
    by_cases hp : f.card = .packed
    · rw [putField_packed _ _ _ _ _ hp, putField_packed _ _ _ _ _ hp]
    · rw [putField_single _ _ _ _ _ hp, putField_single _ _ _ _ _ hp]
      apply seq_length
      · apply forall₂_map
        intro v _
        cases v with
        | num x => exact Nat.le_refl _
        | str b => exact Nat.le_refl _
        | msg w =>
          simp only [putVal]
          split
          · rename_i t _
            have := h t w
            simp only [List.length_append]
            omega
          · exact Nat.le_refl _
      · intro q hq
        obtain ⟨v, _, rfl⟩ := List.mem_map.mp hq
        cases v with
        | num x => rfl
        | str b => simp [putVal]
        | msg w => simp only [putVal]; split <;> simp [hF]
  · intro q hq
    rcases List.mem_append.mp hq with hq | hq
    · obtain ⟨f, v, _, rfl⟩ := mem_zipWith hq
      exact putField_false sizeW encF hF f v
    · simp at hq; subst hq; rfl

theorem enc_length (T : Schema) (d : Nat) : ∀ t (m : Msg d), (enc T d true t m).1.length ≤ (fullM T d t m).length := by
  induction d with
  | zero => intro t m; exact putBody_length (W := Empty) _ _ _ (fun t w => nomatch w) (fun t w => nomatch w) (T t) m
  | succ d ih =>
    intro t m
    exact putBody_length (W := Msg d) _ _ _ (fun t w => by rw [enc_false]) (fun t w => ih t w) (T t) m

theorem keeps_dec (T : Schema) (hT : Legal T) (d : Nat) :
    Keeps (fun t o b => dec T d t (o.getD (empty T d t)) b) (Fit T true d) := by
  intro t o b w ho e
  refine dec_fit T hT d t _ w b ?_ e
  cases o with
  | none => exact empty_fit T true d t
  | some w' => exact ho w' rfl

theorem dec_bad (T : Schema) (hT : Legal T) (d : Nat) : ∀ (d' t : Nat) (x : Msg d') (y : Msg d), Fit T false d t y →
    (fullM T d t y).length < 2 ^ 64 → (enc T d true t y).2 = false → Fit T true d' t x →
    dec T d' t x (enc T d true t y).1 = none := by
  induction d with
  | zero =>
    intro d' t x y hy hs hb hx
    rw [full_zero T false t y hy] at hs
    have hr := small_recs hs
    have e1 : (fun (_ : Nat) (e : Empty) => (nomatch e : Nat)) = fun t w => ((fun _ (e : Empty) => (nomatch e : Bytes)) t w).length := by
      funext _ e; exact nomatch e
    have hb' : (putBody true (fun (_ : Nat) (e : Empty) => (nomatch e : Nat)) (fun _ (e : Empty) => nomatch e) (T t) y).2 = false := hb
    cases d' with
    | zero =>
      have := body_bad (W := Empty) (W' := Empty) (fun _ _ _ => none) (fun t o b w => nomatch w)
        (good := fun _ (e : Empty) => nomatch e) (al := fun _ (e : Empty) => nomatch e)
        (encC := fun _ (e : Empty) => nomatch e) (full := fun _ (e : Empty) => nomatch e)
        (fun t w => nomatch w) (fun t w => nomatch w) (fun t o w => nomatch w) (hT t).1 (hT t).2 hy.1 hr (x := x)
      rw [← e1] at this
      exact this hb' hx
    | succ d' =>
      have := body_bad (W := Empty) (W' := Msg d') (fun t o b => dec T d' t (o.getD (empty T d' t)) b) (keeps_dec T hT d')
        (good := fun _ (e : Empty) => nomatch e) (encC := fun _ (e : Empty) => nomatch e)
        (full := fun _ (e : Empty) => nomatch e)
        (fun t w => nomatch w) (fun t w => nomatch w) (fun t o w => nomatch w) (hT t).1 (hT t).2 hy.1 hr (x := x)
      rw [← e1] at this
      exact this hb' hx
  | succ d ih =>
    intro d' t x y hy hs hb hx
    rw [full_succ T false d t y hy] at hs
    have hr := small_recs hs
    have hsm := small_fields (fullM T d) hy.1 (hT t).2 hr
    cases d' with
    | zero =>
      exact body_bad (W := Msg d) (W' := Empty) (fun _ _ _ => none) (fun t o b w => nomatch w)
        (good := fun t w => Fit T false d t w ∧ (fullM T d t w).length < 2 ^ 64) (al := fun _ (e : Empty) => nomatch e)
        (encC := enc T d true) (full := fullM T d) (fun t w hw hk => enc_ok T false d t w hw.1 hk)
        (fun t w _ => enc_length T d t w) (fun t o w _ _ _ => rfl) (hT t).1 (hT t).2 hsm hr hb hx
    | succ d' =>
      exact body_bad (W := Msg d) (W' := Msg d') (fun t o b => dec T d' t (o.getD (empty T d' t)) b) (keeps_dec T hT d')
        (good := fun t w => Fit T false d t w ∧ (fullM T d t w).length < 2 ^ 64)
        (encC := enc T d true) (full := fullM T d) (fun t w hw hk => enc_ok T false d t w hw.1 hk)
        (fun t w _ => enc_length T d t w) (fun t o w hw hk ho => ih d' t _ w hw.1 hw.2 hk (by
          cases o with
          | none => exact empty_fit T true d' t
          | some w' => exact ho w' rfl)) (hT t).1 (hT t).2 hsm hr hb hx

/-! ### messages nested too deeply -/

theorem body_deep {full : Nat → W → Bytes} {good : Nat → W → Prop} {al : Nat → W' → Prop} (hs : Keeps sub al)
    {fs : List Field} (hp : fs.Pairwise (fun f g => f.num < g.num)) (hl : ∀ f ∈ fs, f.Legal) {y : Body W}
    (hy : BodyFit true good fs y) (hsm : (bodyFull full fs y).length < 2 ^ 64)
    {vs : List (Val W)} (hvs : vs ∈ y.fields) {w : W} (hw : .msg w ∈ vs)
    (hd : ∀ t o, good t w → (∀ w', o = some w' → al t w') → sub t o (full t w) = none)
    {x : Body W'} (hx : BodyFit true al fs x) : decBody sub fs x (bodyFull full fs y) = none := by
  obtain ⟨rs, hrs, hu⟩ := hy.2
  have hr := small_recs hsm
  have hok := allRecs_ok full fs hl y.fields (hy.1.imp (fun _ _ h => h.1)) hr
  have hf : ∃ f t, f ∈ fs ∧ f.kind = .msg t ∧ good t w ∧ recVal full f (.msg w) ∈ allRecs full fs y.fields := by
    have hy1 := hy.1
    generalize y.fields = ys at hy1 hvs
    clear hy hsm hr hok hx hp hu hrs
    induction hy1 with
    | nil => simp at hvs
    | @cons f v fs ys hv _ ih =>
      rcases List.mem_cons.mp hvs with rfl | hvs
      · have h1 := hv.1.1 _ hw
        cases hk : f.kind <;> simp only [hk, ValOk] at h1
        rename_i t
        refine ⟨f, t, by simp, hk, h1, List.mem_append_left _ ?_⟩
        have hnp : f.card ≠ .packed := by
          intro e
          have := (hl f (by simp)).2.2
          simp [hk, e] at this
        rw [recsOf_single full f _ hnp]
        exact List.mem_map_of_mem hw
      · obtain ⟨g, t, h1, h2, h3, h4⟩ := ih (fun f hf => hl f (List.mem_cons_of_mem _ hf)) hvs
        exact ⟨g, t, List.mem_cons_of_mem _ h1, h2, h3, List.mem_append_right _ h4⟩
  obtain ⟨f, t, hff, hk, hg, hmem⟩ := hf
  have e : bodyFull full fs y = ((allRecs full fs y.fields ++ rs).map chunk).flatten := by
    rw [bodyFull, hu]; simp
  have hok' : ∀ r ∈ allRecs full fs y.fields ++ rs, RecOk r := by
    intro r hr'
    rcases List.mem_append.mp hr' with h | h
    · exact hok r h
    · exact (hrs r h).1
  rw [decBody, e, records_chunks' _ hok']
  refine applyAll_none sub hs fs hp hff (r := recVal full f (.msg w)) ?_ ?_ _ (List.mem_append_left _ hmem) hok' x hx
  · simp [recVal, hk]
  · intro v hv
    have h1 := hd t none hg (by simp)
    have h2 := hd t (held v) hg (fun w' e => held_ok hv.1 t hk w' e)
    simp only [applyVal, hk, recVal, h1, h2]
    split <;> rfl

theorem dec_deep (T : Schema) (hT : Legal T) (d' : Nat) : ∀ (d t : Nat) (x : Msg d') (y : Msg d), Fit T true d t y →
    (fullM T d t y).length < 2 ^ 64 → Reaches (d' + 1) d y → Fit T true d' t x → dec T d' t x (fullM T d t y) = none := by
  induction d' with
  | zero =>
    intro d t x y hy hs hr hx
    cases d with
    | zero => exact absurd hr (by simp [Reaches])
    | succ d =>
      obtain ⟨vs, hvs, v, hv, w, rfl, _⟩ := hr
      rw [full_succ T true d t y hy] at hs ⊢
      exact body_deep (W := Msg d) (W' := Empty) (fun _ _ _ => none) (fun t o b w => nomatch w)
        (al := fun _ (e : Empty) => nomatch e) (hT t).1 (hT t).2 hy hs hvs hv (fun t o _ _ => rfl) hx
  | succ d' ih =>
    intro d t x y hy hs hr hx
    cases d with
    | zero => exact absurd hr (by simp [Reaches])
    | succ d =>
      obtain ⟨vs, hvs, v, hv, w, rfl, hr⟩ := hr
      rw [full_succ T true d t y hy] at hs ⊢
      have hsm := small_fields (fullM T d) hy.1 (hT t).2 (small_recs hs)
      exact body_deep (W := Msg d) (W' := Msg d') (fun t o b => dec T d' t (o.getD (empty T d' t)) b) (keeps_dec T hT d')
        (good := fun t w => Fit T true d t w ∧ (fullM T d t w).length < 2 ^ 64) (full := fullM T d)
        (hT t).1 (hT t).2 ⟨hsm, hy.2⟩ hs hvs hv (fun t o hg ho => ih d t _ w hg.1 hg.2 hr (by
          cases o with
          | none => exact empty_fit T true d' t
          | some w' => exact ho w' rfl)) hx

/-! ### bytes after bytes, and what an older program sees -/

theorem applyAll_bind (fs : List Field) (rs qs : List Rec) : ∀ (x : Body W'),
    applyAll sub fs x (rs ++ qs) = (applyAll sub fs x rs).bind (fun m => applyAll sub fs m qs) := by
  induction rs with
  | nil => intro x; rfl
  | cons r rs ih =>
    intro x
    rw [List.cons_append, applyAll, applyAll]
    cases applyRec sub fs x r with
    | none => rfl
    | some m => exact ih m

theorem decBody_append {fs : List Field} {x m : Body W'} {a : Bytes} (h : decBody sub fs x a = some m) (b : Bytes) :
    decBody sub fs x (a ++ b) = decBody sub fs m b := by
  unfold decBody at h ⊢
  cases ea : records a with
  | none => simp [ea] at h
  | some rs =>
    simp only [ea] at h
    rw [records_append ea]
    cases records b with
    | none => rfl
    | some qs =>
      simp only [Option.map_some]
      rw [applyAll_bind, h]
      rfl

theorem dec_append (T : Schema) (d t : Nat) (x m : Msg d) (a b : Bytes) (h : dec T d t x a = some m) :
    dec T d t x (a ++ b) = dec T d t m b := by
  cases d with
  | zero => exact decBody_append _ h b
  | succ d => exact decBody_append _ h b

theorem seenFields_twice {old same : Field → Option Field} (hs : ∀ f, same f = some f)
    (hold : ∀ f g, old f = some g → Compat f g) (seenW oldW both : Nat → W → W)
    (hw : ∀ t w, seenW t (oldW t w) = both t w) (fs : List Field) : ∀ ys : List (List (Val W)),
    seenFields same seenW (fs.filterMap old) (seenFields old oldW fs ys) = seenFields old both fs ys := by
  induction fs with
  | nil => intro ys; simp [seenFields]
  | cons f fs ih =>
    intro ys
    cases ys with
    | nil =>
      simp only [seenFields]
      cases (f :: fs).filterMap old <;> simp [seenFields]
    | cons v ys =>
      cases e : old f with
      | none =>
        simp only [List.filterMap_cons, e, seenFields]
        exact ih ys
      | some g =>
        simp only [List.filterMap_cons, e, seenFields, hs, ih ys, (hold f g e).2.1, List.map_map]
        congr 1
        apply List.map_congr_left
        intro x _
        cases hk : f.kind <;> cases x <;> simp [hw]

theorem seen_oldMsg (T : Schema) (old : Older) (ho : old.Fine) (d : Nat) : ∀ t (m : Msg d),
    seen (older old T) same d t (oldMsg T old d t m) = seen T old d t m := by
  induction d with
  | zero =>
    intro t m
    have := seenFields_twice (W := Empty) (same := same t) (fun _ => rfl) (older_compat ho t) (fun _ e => e) (fun _ e => e)
      (fun _ e => e) (fun _ _ => rfl) (T t) (Body.fields m)
    exact congrArg (fun v => (⟨v, []⟩ : Body Empty)) this
  | succ d ih =>
    intro t m
    have := seenFields_twice (W := Msg d) (same := same t) (fun _ => rfl) (older_compat ho t) (seen (older old T) same d)
      (oldMsg T old d) (seen T old d) (fun t w => ih t w) (T t) (Body.fields m)
    exact congrArg (fun v => (⟨v, []⟩ : Body (Msg d))) this

end Gofer.Proto
