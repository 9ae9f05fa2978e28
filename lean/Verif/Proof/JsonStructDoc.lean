import Verif.Proof.JsonStructBack
/-!
# Members of documents and fields of structs
-/
namespace Gofer.JsonStruct
open Gofer.Spec.Json (Bytes Text Fixed StrDoc Space NatDoc filled put)
open Gofer.Spec.JsonStruct hiding Empty
open Gofer.Json hiding jsonDecode jsonEncode

variable (fold : Bytes → Bytes)

theorem storeF_append (fs : List Field) (vs : List V) (a b : List (Bytes × J)) (hl : vs.length = fs.length) :
    storeF fold fs vs (a ++ b) = ((storeF fold fs (storeF fold fs vs a).1 b).1, (storeF fold fs vs a).2 && (storeF fold fs (storeF fold fs vs a).1 b).2) := by
  induction a generalizing vs with
  | nil => simp [storeF]
  | cons e a ih =>
    obtain ⟨k, j⟩ := e
    rw [List.cons_append]
    rcases storeF_cons fold fs vs k j (a ++ b) hl with ⟨h0, h⟩ | ⟨i, f, v, h0, h1, h2, h⟩ <;>
      rcases storeF_cons fold fs vs k j a hl with ⟨h0', h'⟩ | ⟨i', f', v', h0', h1', h2', h'⟩
    · rw [h, h', ih vs hl]
    · rw [h0] at h0'; simp at h0'
    · rw [h0] at h0'; simp at h0'
    · rw [h0] at h0'
      simp only [Option.some.injEq] at h0'
      subst h0'
      rw [h1] at h1'
      rw [h2] at h2'
      simp only [Option.some.injEq] at h1' h2'
      subst h1' h2'
      rw [h, h', ih _ (by simpa using hl)]
      simp [Bool.and_assoc]

theorem storeF_last (fs : List Field) (vs : List V) (a b : List (Bytes × J)) (k : Bytes) (x : J) (hl : vs.length = fs.length) (i : Nat) (f : Field)
    (hi : find fold k fs = some i) (hf : fs[i]? = some f) (hb : ∀ e ∈ b, find fold e.1 fs ≠ some i) :
    ∃ v, (storeF fold fs vs a).1[i]? = some v ∧ (storeF fold fs vs (a ++ (k, x) :: b)).1[i]? = some (store fold f.t v x).1 := by
  have hl' : (storeF fold fs vs a).1.length = fs.length := by rw [storeF_length fold fs vs a hl, hl]
  rw [storeF_append fold fs vs a _ hl]
  simp only []
  rcases storeF_cons fold fs (storeF fold fs vs a).1 k x b hl' with ⟨h0, h⟩ | ⟨i', f', v', h0, h1, h2, h⟩
  · rw [h0] at hi; simp at hi
  · rw [h0] at hi
    simp only [Option.some.injEq] at hi
    subst hi
    rw [h1] at hf
    simp only [Option.some.injEq] at hf
    subst hf
    refine ⟨v', h2, ?_⟩
    rw [h]
    simp only []
    rw [storeF_skip fold fs _ b (by simpa using hl') i' hb, List.getElem?_set_self (get_lt h2)]

theorem storeF_drop (fs : List Field) (vs : List V) (a b : List (Bytes × J)) (k : Bytes) (x : J) (hl : vs.length = fs.length)
    (hk : find fold k fs = none) : storeF fold fs vs (a ++ (k, x) :: b) = storeF fold fs vs (a ++ b) := by
  have hl' : (storeF fold fs vs a).1.length = fs.length := by rw [storeF_length fold fs vs a hl, hl]
  rw [storeF_append fold fs vs a _ hl, storeF_append fold fs vs a b hl]
  rcases storeF_cons fold fs (storeF fold fs vs a).1 k x b hl' with ⟨h0, h⟩ | ⟨i', f', v', h0, h1, h2, h⟩
  · rw [h]
  · rw [h0] at hk; simp at hk

theorem apart_perm {fs : List Field} {l l' : List (Bytes × J)} (h : l.Perm l') (ha : Apart fold fs l) : Apart fold fs l' :=
  h.pairwise ha (fun h i h1 h2 => h i h2 h1)

theorem storeF_perm (fs : List Field) (vs : List V) (l l' : List (Bytes × J)) (hl : vs.length = fs.length) (h : l.Perm l') (ha : Apart fold fs l) :
    storeF fold fs vs l = storeF fold fs vs l' := by
  have ha' := apart_perm fold h ha
  apply Prod.ext
  · apply List.ext_getElem?
    intro i
    by_cases hi : i < fs.length
    · obtain ⟨f, hf⟩ := get_some hi
      obtain ⟨v, hv⟩ := get_some (l := vs) (i := i) (by omega)
      by_cases he : ∃ e ∈ l, find fold e.1 fs = some i
      · obtain ⟨e, he, hi⟩ := he
        rw [storeF_at fold fs vs l hl ha e he i f v hi hf hv, storeF_at fold fs vs l' hl ha' e (h.mem_iff.1 he) i f v hi hf hv]
      · rw [storeF_skip fold fs vs l hl i (fun e h1 h2 => he ⟨e, h1, h2⟩),
          storeF_skip fold fs vs l' hl i (fun e h1 h2 => he ⟨e, h.mem_iff.2 h1, h2⟩)]
    · rw [List.getElem?_eq_none (by rw [storeF_length fold _ _ _ hl]; omega), List.getElem?_eq_none (by rw [storeF_length fold _ _ _ hl]; omega)]
  · rw [Bool.eq_iff_iff, storeF_ok fold fs vs l hl ha, storeF_ok fold fs vs l' hl ha']
    exact ⟨fun hh e he => hh e (h.mem_iff.2 he), fun hh e he => hh e (h.mem_iff.1 he)⟩

theorem decode_obj (fs : Fields) (ms : List (Bytes × J)) (bs : Bytes) (h : Document (.obj ms) bs) (hd : depthM ms < 10000) :
    jsonDecode fold (.struct fs) bs = (.struct (storeF fold fs.toList (zeros fs) ms).1, (storeF fold fs.toList (zeros fs) ms).2) := by
  rw [decode_document fold (.struct fs) (.obj ms) bs h (by simp only [J.depth, maxDepth]; omega)]
  simp only [store, peel, zero, cur, wrap]

theorem zeros_length (fs : Fields) : (zeros fs).length = fs.toList.length := by rw [toList_zeros]; simp

theorem zeros_get {fs : Fields} {i : Nat} {f : Field} (h : fs.toList[i]? = some f) : (zeros fs)[i]? = some (zero f.t) := by
  rw [toList_zeros, List.getElem?_map, h]
  rfl

theorem store_whole {t : T} {j : J} (h : Whole t j) (v v' : V) (ok : (store fold t v' j).2 = true) : (store fold t v j).1 = (store fold t v' j).1 := by
  induction h generalizing v v' with
  | num s n lit =>
    simp only [store, peel, wrap] at ok ⊢
    cases hp : parseNum s n lit with
    | none => rw [hp] at ok; simp at ok
    | some i => rfl
  | ptr t j hn hw ih =>
    rw [store_ptr fold t v j hn, store_ptr fold t v' j hn]
    rw [store_ptr fold t v' j hn] at ok
    simp only [V.ptr.injEq]
    exact ih _ _ ok
  | _ => simp [store, peel, wrap, nullify]

theorem store_solid {t : T} (h : Solid t) (v : V) : store fold t v .null = (v, true) := by
  rcases h with rfl | rfl | ⟨s, n, rfl⟩ | ⟨fs, rfl⟩ <;> rfl

theorem storeF_null (fs : List Field) (vs : List V) (a b : List (Bytes × J)) (k : Bytes) (hl : vs.length = fs.length)
    (hk : ∀ i f, find fold k fs = some i → fs[i]? = some f → Solid f.t) : storeF fold fs vs (a ++ (k, .null) :: b) = storeF fold fs vs (a ++ b) := by
  have hl' : (storeF fold fs vs a).1.length = fs.length := by rw [storeF_length fold fs vs a hl, hl]
  rw [storeF_append fold fs vs a _ hl, storeF_append fold fs vs a b hl]
  rcases storeF_cons fold fs (storeF fold fs vs a).1 k .null b hl' with ⟨h0, h⟩ | ⟨i', f', v', h0, h1, h2, h⟩
  · rw [h]
  · rw [h, store_solid fold (hk i' f' h0 h1)]
    have : ((storeF fold fs vs a).1.set i' v') = (storeF fold fs vs a).1 := by
      apply List.ext_getElem?
      intro n
      rw [List.getElem?_set]
      split
      · next hn =>
        subst hn
        rw [if_pos (get_lt h2), h2]
      · rfl
    rw [this, Bool.true_and]

/-! ## Several objects for one field -/

theorem storeF_move (fs : List Field) (vs : List V) (b c : List (Bytes × J)) (q : Bytes × J) (hl : vs.length = fs.length)
    (hb : ∀ e ∈ b, ∀ i, find fold e.1 fs = some i → find fold q.1 fs ≠ some i) : storeF fold fs vs (b ++ q :: c) = storeF fold fs vs (q :: (b ++ c)) := by
  induction b generalizing vs with
  | nil => rfl
  | cons e b ih =>
    have hl' : (storeF fold fs vs [e]).1.length = fs.length := by rw [storeF_length fold fs vs _ hl, hl]
    have e1 : e :: b ++ q :: c = [e] ++ (b ++ q :: c) := rfl
    have e2 : q :: (e :: b ++ c) = [q, e] ++ (b ++ c) := rfl
    have e3 : [e] ++ q :: (b ++ c) = [e, q] ++ (b ++ c) := rfl
    rw [e1, storeF_append fold fs vs _ _ hl, ih _ hl' (fun x hx => hb x (by simp [hx])), ← storeF_append fold fs vs _ _ hl, e2, e3,
      storeF_append fold fs vs _ _ hl, storeF_append fold fs vs _ _ hl]
    have := storeF_perm fold fs vs [e, q] [q, e] hl (.swap _ _ _) (by
      unfold Apart
      simp only [List.pairwise_cons, List.mem_singleton, forall_eq, List.not_mem_nil, false_implies, implies_true, List.Pairwise.nil, and_true]
      exact hb e (by simp))
    rw [this]

theorem storeM_append (t : T) (m : List (Bytes × V)) (a b : List (Bytes × J)) :
    storeM fold t m (a ++ b) = ((storeM fold t (storeM fold t m a).1 b).1, (storeM fold t m a).2 && (storeM fold t (storeM fold t m a).1 b).2) := by
  induction a generalizing m with
  | nil => simp [storeM]
  | cons e a ih =>
    obtain ⟨k, j⟩ := e
    rw [List.cons_append]
    simp only [storeM]
    rw [ih]
    simp [Bool.and_assoc]

theorem store_merge (t : T) (v : V) (h : Is t v) (x y : List (Bytes × J)) :
    store fold t v (.obj (x ++ y)) = ((store fold t (store fold t v (.obj x)).1 (.obj y)).1,
      (store fold t v (.obj x)).2 && (store fold t (store fold t v (.obj x)).1 (.obj y)).2) := by
  induction t using ptr_induct generalizing v with
  | ptr t ih =>
    rw [store_ptr fold t v _ (by simp), store_ptr fold t v _ (by simp), store_ptr fold t _ (.obj y) (by simp)]
    have := ih _ (is_inner h)
    simp only []
    rw [Prod.ext_iff] at this ⊢
    simp only [V.ptr.injEq]
    exact this
  | map t =>
    simp only [store, peel, cur, wrap]
    rw [storeM_append]
  | struct fs =>
    obtain ⟨l, rfl, hl⟩ := h
    simp only [store, peel, cur, wrap]
    rw [storeF_append fold _ _ _ _ (by rw [isF_iff] at hl; exact hl.length_eq.symm)]
  | _ => simp [store, peel, cur, wrap]

theorem storeF_merge (fs : Fields) (a b c : List (Bytes × J)) (k k' : Bytes) (x y : List (Bytes × J)) (i : Nat)
    (hk : find fold k fs.toList = some i) (hk' : find fold k' fs.toList = some i) (hb : ∀ e ∈ b, find fold e.1 fs.toList ≠ some i) :
    storeF fold fs.toList (zeros fs) (a ++ (k, .obj x) :: (b ++ (k', .obj y) :: c)) =
      storeF fold fs.toList (zeros fs) (a ++ (k, .obj (x ++ y)) :: (b ++ c)) := by
  have hz := zeros_length fs
  rw [storeF_append fold _ _ a _ hz, storeF_append fold _ _ a _ hz]
  have hI : IsF fs (storeF fold fs.toList (zeros fs) a).1 := by
    have := store_is fold (.obj a) (.struct fs) (zero (.struct fs)) (is_zero _)
    simp only [store, peel, zero, cur, wrap] at this
    obtain ⟨l, h1, h2⟩ := this
    cases h1
    exact h2
  generalize (storeF fold fs.toList (zeros fs) a).1 = vs at hI
  rw [isF_iff] at hI
  have hl : vs.length = fs.toList.length := hI.length_eq.symm
  have key : storeF fold fs.toList vs ((k, .obj x) :: (b ++ (k', .obj y) :: c)) = storeF fold fs.toList vs ((k, .obj (x ++ y)) :: (b ++ c)) := by
    have hl' : (storeF fold fs.toList vs [(k, .obj x)]).1.length = fs.toList.length := by rw [storeF_length fold _ vs _ hl, hl]
    have e1 : (k, J.obj x) :: (b ++ (k', .obj y) :: c) = [(k, .obj x)] ++ (b ++ (k', .obj y) :: c) := rfl
    rw [e1, storeF_append fold _ vs _ _ hl, storeF_move fold _ _ b c _ hl' (fun e he j h1 h2 => by
      simp only [] at h2
      rw [hk'] at h2
      simp only [Option.some.injEq] at h2
      exact hb e he (h2 ▸ h1)), ← storeF_append fold _ vs _ _ hl]
    simp only [List.singleton_append]
    rcases storeF_cons fold fs.toList vs k (.obj x) ((k', .obj y) :: (b ++ c)) hl with ⟨h0, _⟩ | ⟨i1, f, v, h0, h1, h2, h⟩
    · rw [hk] at h0; simp at h0
    · rw [hk] at h0
      simp only [Option.some.injEq] at h0
      subst h0
      have hv : Is f.t v := by
        have := (List.forall₂_iff_get.1 hI).2 i (get_lt h1) (get_lt h2)
        rw [List.getElem?_eq_some_iff] at h1 h2
        obtain ⟨_, h1⟩ := h1
        obtain ⟨_, h2⟩ := h2
        simp only [List.get_eq_getElem, h1, h2] at this
        exact this
      rcases storeF_cons fold fs.toList vs k (.obj (x ++ y)) (b ++ c) hl with ⟨h0, _⟩ | ⟨i2, f2, v2, h0, h1', h2', h'⟩
      · rw [hk] at h0; simp at h0
      · rw [hk] at h0
        simp only [Option.some.injEq] at h0
        subst h0
        rw [h1] at h1'
        rw [h2] at h2'
        cases h1'
        cases h2'
        rcases storeF_cons fold fs.toList (vs.set i (store fold f.t v (.obj x)).1) k' (.obj y) (b ++ c) (by simpa using hl) with ⟨h0, _⟩ | ⟨i3, f3, v3, h0, h1', h2', h''⟩
        · rw [hk'] at h0; simp at h0
        · rw [hk'] at h0
          simp only [Option.some.injEq] at h0
          subst h0
          rw [h1] at h1'
          cases h1'
          rw [List.getElem?_set_self (get_lt h2)] at h2'
          cases h2'
          rw [h, h', h'', store_merge fold f.t v hv x y]
          simp [Bool.and_assoc]
  rw [key]

theorem snoc_toList (fs : Fields) (f : Field) : (fs.snoc f).toList = fs.toList ++ [f] := by
  match fs with
  | .nil => simp [Fields.snoc, Fields.toList]
  | .cons n o t fs => simp [Fields.snoc, Fields.toList, snoc_toList fs f]

theorem good_snoc (fs : Fields) (f : Field) : GoodF (fs.snoc f) ↔ GoodF fs ∧ Text f.name ∧ Good f.t := by
  match fs with
  | .nil => simp [Fields.snoc, GoodF]
  | .cons n o t fs => simp [Fields.snoc, GoodF, good_snoc fs f, and_assoc]

/-- A field is added. -/
theorem view_snoc (fs : Fields) (f : Field) (l : List V) (hg : Good (.struct (fs.snoc f))) (hv : IsF fs l) (hp : PlainF fs l) :
    View fold (.struct fs) (.struct (fs.snoc f)) (.struct l) (.struct (l ++ [zero f.t])) := by
  have hg' := (good_snoc fs f).1 hg.2
  have hnd := hg.1
  rw [snoc_toList, List.map_append, List.nodup_append] at hnd
  obtain ⟨h1, h2, h3⟩ := backF_view fold fs l l hg'.1 hv (backF_plain fs l hv hp)
  have hold : ∀ (k : Nat) (g : Field), k < fs.toList.length → (fs.snoc f).toList[k]? = some g → fs.toList[k]? = some g := by
    intro k g hk h
    rwa [snoc_toList, List.getElem?_append_left hk] at h
  refine .struct fs (fs.snoc f) l _ (fun k => if k < fs.toList.length then some k else none) ?_ ?_ ?_ ?_ ?_ ?_
  · rw [snoc_toList]; simp [h1]
  · intro g hgm
    refine .inl ⟨g, ?_, rfl⟩
    rw [snoc_toList]
    simp [hgm]
  · intro k g hk hs
    have hkl : ¬ k < fs.toList.length := by
      intro h
      simp [h] at hs
    have hk' := get_lt hk
    rw [snoc_toList, List.length_append, List.length_singleton] at hk'
    have : k = fs.toList.length := by omega
    subst this
    rw [snoc_toList, List.getElem?_append_right (le_refl _)] at hk
    simp only [Nat.sub_self, List.getElem?_cons_zero, Option.some.injEq] at hk
    subst hk
    refine ⟨?_, ?_⟩
    · intro g hgm he
      exact hnd.2.2 g.name (List.mem_map.2 ⟨g, hgm, rfl⟩) f.name (by simp) he
    · rw [List.getElem?_append_right (by omega), h1]
      simp
  · intro k i g hk hs
    have hkl : k < fs.toList.length := by
      by_contra h
      simp [h] at hs
    simp only [hkl, if_true, Option.some.injEq] at hs
    subst hs
    obtain ⟨v, hv⟩ := get_some (l := l) (i := k) (by omega)
    exact ⟨g, v, hold k g hkl hk, rfl, hv⟩
  · intro k i f' g v hk hs hf hv hb he
    have hkl : k < fs.toList.length := by
      by_contra h
      simp [h] at hs
    simp only [hkl, if_true, Option.some.injEq] at hs
    subst hs
    have := hold k g hkl hk
    rw [hf] at this
    simp only [Option.some.injEq] at this
    subst this
    rw [List.getElem?_append_left (by omega)]
    rcases h3 k f' v v hf hv hv with ⟨_, _, h⟩ | ⟨h, _⟩
    · rw [hv, h]
    · exact absurd ⟨hb, he⟩ h
  · intro k i f' g v w hk hs hf hv hw hn
    have hkl : k < fs.toList.length := by
      by_contra h
      simp [h] at hs
    simp only [hkl, if_true, Option.some.injEq] at hs
    subst hs
    have := hold k g hkl hk
    rw [hf] at this
    simp only [Option.some.injEq] at this
    subst this
    rw [List.getElem?_append_left (by omega), hv] at hw
    simp only [Option.some.injEq] at hw
    subst hw
    rcases h3 k f' v v hf hv hv with ⟨h, h', _⟩ | ⟨_, h⟩
    · exact absurd ⟨h, h'⟩ hn
    · exact h

/-- A field is not known any more. -/
theorem view_init (fs : Fields) (f : Field) (l : List V) (x : V) (hg : GoodF fs) (hf : ∀ g ∈ fs.toList, fold g.name ≠ fold f.name)
    (hv : IsF fs l) (hp : PlainF fs l) : View fold (.struct (fs.snoc f)) (.struct fs) (.struct (l ++ [x])) (.struct l) := by
  obtain ⟨h1, h2, h3⟩ := backF_view fold fs l l hg hv (backF_plain fs l hv hp)
  have hold : ∀ (k : Nat) (g : Field), k < fs.toList.length → (fs.snoc f).toList[k]? = some g → fs.toList[k]? = some g := by
    intro k g hk h
    rwa [snoc_toList, List.getElem?_append_left hk] at h
  refine .struct (fs.snoc f) fs _ l some h2 ?_ ?_ ?_ ?_ ?_
  · intro g hgm
    rw [snoc_toList] at hgm
    rcases List.mem_append.1 hgm with h | h
    · exact .inl ⟨g, h, rfl⟩
    · simp only [List.mem_singleton] at h
      subst h
      exact .inr hf
  · intro k g hk hs
    simp at hs
  · intro k i g hk hs
    simp only [Option.some.injEq] at hs
    subst hs
    have hkl := get_lt hk
    obtain ⟨v, hv⟩ := get_some (l := l) (i := k) (by omega)
    refine ⟨g, v, ?_, rfl, ?_⟩
    · rw [snoc_toList, List.getElem?_append_left hkl, hk]
    · rw [List.getElem?_append_left (by omega), hv]
  · intro k i f' g v hk hs hf' hv hb he
    simp only [Option.some.injEq] at hs
    subst hs
    have hkl := get_lt hk
    have := hold k f' hkl hf'
    rw [hk] at this
    simp only [Option.some.injEq] at this
    subst this
    rw [List.getElem?_append_left (by omega)] at hv
    rcases h3 k g v v hk hv hv with ⟨_, _, h⟩ | ⟨h, _⟩
    · rw [hv, h]
    · exact absurd ⟨hb, he⟩ h
  · intro k i f' g v w hk hs hf' hv hw hn
    simp only [Option.some.injEq] at hs
    subst hs
    have hkl := get_lt hk
    have := hold k f' hkl hf'
    rw [hk] at this
    simp only [Option.some.injEq] at this
    subst this
    rw [List.getElem?_append_left (by omega), hw] at hv
    simp only [Option.some.injEq] at hv
    subst hv
    rcases h3 k g w w hk hw hw with ⟨h, h', _⟩ | ⟨_, h⟩
    · exact absurd ⟨h, h'⟩ hn
    · exact h

theorem isF_snoc (fs : Fields) (f : Field) (l : List V) (x : V) (h : IsF fs l) (hx : Is f.t x) : IsF (fs.snoc f) (l ++ [x]) := by
  match fs with
  | .nil => cases h; exact ⟨x, [], rfl, hx, rfl⟩
  | .cons n o t fs =>
    obtain ⟨v, r, rfl, h1, h2⟩ := h
    exact ⟨v, r ++ [x], rfl, h1, isF_snoc fs f r x h2 hx⟩

end Gofer.JsonStruct
