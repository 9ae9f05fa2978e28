import Verif.Model.Consistenthash
import Verif.Proof.AMap
import Verif.Proof.Crc64
import Mathlib.Order.Basic
import Mathlib.Data.List.Basic
import Mathlib.Data.List.Dedup

namespace Gofer.Consistenthash
open Gofer.Spec.Ring
variable {P : Type} [LinearOrder P]

/-! ### Sorting and searching -/

theorem mem_insertKey (k x : P) (l : List P) : x ∈ insertKey k l ↔ x = k ∨ x ∈ l := by
  induction l with
  | nil => simp [insertKey]
  | cons y ys ih =>
    simp only [insertKey]
    split
    · simp
    · simp only [List.mem_cons, ih]; tauto

theorem mem_sortKeys (x : P) (l : List P) : x ∈ sortKeys l ↔ x ∈ l := by
  induction l with
  | nil => simp [sortKeys]
  | cons y ys ih => simp [sortKeys, mem_insertKey, ih]

theorem sorted_insertKey (k : P) {l : List P} (h : l.Pairwise (· ≤ ·)) : (insertKey k l).Pairwise (· ≤ ·) := by
  induction l with
  | nil => simp [insertKey]
  | cons y ys ih =>
    obtain ⟨h1, h2⟩ := List.pairwise_cons.1 h
    simp only [insertKey]
    split
    · rename_i hle
      refine List.pairwise_cons.2 ⟨?_, h⟩
      intro z hz
      rcases List.mem_cons.1 hz with rfl | hz
      · exact hle
      · exact le_trans hle (h1 z hz)
    · rename_i hle
      refine List.pairwise_cons.2 ⟨?_, ih h2⟩
      intro z hz
      rcases (mem_insertKey k z ys).1 hz with rfl | hz
      · exact le_of_lt (not_le.1 hle)
      · exact h1 z hz

theorem sorted_sortKeys (l : List P) : (sortKeys l).Pairwise (· ≤ ·) := by
  induction l with
  | nil => exact List.Pairwise.nil
  | cons y ys ih => exact sorted_insertKey y ih

theorem insertKey_of_le {k : P} {l : List P} (h : ∀ x ∈ l, k ≤ x) : insertKey k l = k :: l := by
  cases l with
  | nil => rfl
  | cons y ys => simp [insertKey, h y (by simp)]

theorem sortKeys_of_sorted {l : List P} (h : l.Pairwise (· ≤ ·)) : sortKeys l = l := by
  induction l with
  | nil => rfl
  | cons y ys ih =>
    obtain ⟨h1, h2⟩ := List.pairwise_cons.1 h
    rw [sortKeys, ih h2, insertKey_of_le h1]

theorem searchLoop_spec (f : Nat → Bool) (n fuel i j : Nat) (hij : i ≤ j) (hj : j ≤ n) (hf : j - i ≤ fuel)
    (mono : ∀ a b, a ≤ b → b < n → f a = true → f b = true)
    (hlo : ∀ k < i, f k = false) (hhi : ∀ k, j ≤ k → k < n → f k = true) :
    searchLoop f fuel i j ≤ n ∧ (∀ k < searchLoop f fuel i j, f k = false) ∧
      (∀ k, searchLoop f fuel i j ≤ k → k < n → f k = true) := by
  induction fuel generalizing i j with
  | zero =>
    have : i = j := by omega
    subst this
    exact ⟨hj, hlo, hhi⟩
  | succ fuel ih =>
    simp only [searchLoop]
    split
    · rename_i hlt
      cases hh : f ((i + j) / 2) with
      | false =>
        simp only [Bool.not_false, if_true]
        refine ih _ _ (by omega) hj (by omega) ?_ hhi
        intro k hk
        by_contra hc
        have hk' : f k = true := by simpa using hc
        have := mono k ((i + j) / 2) (by omega) (by omega) hk'
        rw [hh] at this; simp at this
      | true =>
        simp only [Bool.not_true, Bool.false_eq_true, if_false]
        refine ih _ _ (by omega) (by omega) (by omega) hlo ?_
        intro k h1 h2
        exact mono _ k h1 h2 hh
    · have : i = j := by omega
      subst this
      exact ⟨hj, hlo, hhi⟩

theorem search_spec (f : Nat → Bool) (n : Nat) (mono : ∀ a b, a ≤ b → b < n → f a = true → f b = true) :
    search n f ≤ n ∧ (∀ k < search n f, f k = false) ∧ (∀ k, search n f ≤ k → k < n → f k = true) :=
  searchLoop_spec f n n 0 n (by omega) le_rfl (by omega) mono (by omega) (by omega)

theorem getElem_le {l : List P} (h : l.Pairwise (· ≤ ·)) {a b : Nat} (hab : a ≤ b) (hb : b < l.length) : l[a] ≤ l[b] := by
  rcases Nat.lt_or_eq_of_le hab with hlt | rfl
  · exact List.pairwise_iff_getElem.1 h a b (by omega) hb hlt
  · exact le_refl _

theorem geAt_of_lt {keys : List P} {x : P} {i : Nat} (h : i < keys.length) : geAt keys x i = decide (x ≤ keys[i]) := by
  simp [geAt, h]

/-- What the index of a lookup is. -/
theorem index_spec (t : CH P) (hs : t.keys.Pairwise (· ≤ ·)) (x : P) (hne : t.keys ≠ []) :
    ∃ h : index t x < t.keys.length,
      (x ≤ t.keys[index t x] ∧ (∀ k, (hk : k < index t x) → t.keys[k] < x) ∨
       (index t x = 0 ∧ ∀ k, (hk : k < t.keys.length) → t.keys[k] < x)) := by
  have mono : ∀ a b, a ≤ b → b < t.keys.length → geAt t.keys x a = true → geAt t.keys x b = true := by
    intro a b hab hb ha
    rw [geAt_of_lt (by omega : a < t.keys.length)] at ha
    rw [geAt_of_lt hb]
    simp only [decide_eq_true_eq] at ha ⊢
    exact le_trans ha (getElem_le hs hab hb)
  obtain ⟨h1, h2, h3⟩ := search_spec (geAt t.keys x) t.keys.length mono
  have hpos : 0 < t.keys.length := List.length_pos_of_ne_nil hne
  have hidx : index t x = if search t.keys.length (geAt t.keys x) ≥ t.keys.length then 0 else search t.keys.length (geAt t.keys x) := rfl
  by_cases hge : search t.keys.length (geAt t.keys x) ≥ t.keys.length
  · rw [if_pos hge] at hidx
    refine ⟨by omega, Or.inr ⟨hidx, ?_⟩⟩
    intro k hk
    have := h2 k (by omega)
    rw [geAt_of_lt hk] at this
    exact not_le.1 (by simpa using this)
  · rw [if_neg hge] at hidx
    refine ⟨by omega, Or.inl ⟨?_, ?_⟩⟩
    · have := h3 (index t x) (by omega) (by omega)
      rw [geAt_of_lt (by omega)] at this
      simpa using this
    · intro k hk
      have := h2 k (by omega)
      rw [geAt_of_lt (by omega)] at this
      exact not_le.1 (by simpa using this)

/-! ### Invariant -/

/-- The part of the invariant that holds inside `Add`. -/
structure PInv (t : CH P) (s : St P (BitVec 64)) (r : Nat) : Prop where
  rep : t.replicas = r
  load : ∀ p, t.m.load p = s.ring p
  mem : ∀ p, p ∈ t.keys ↔ s.ring p ≠ none
  nodes : ∀ n, (t.nodes.load n).isSome = true ↔ n ∈ s.nodes
  own : ∀ p n, s.ring p = some n → n ∈ s.nodes
  alloc : t.keys ≠ [] → t.alloc = true
  alloc' : 0 < r → s.nodes ≠ [] → t.alloc = true
  alloc0 : t.alloc = true → 0 < r

/-- Refinement relation. -/
structure Inv (t : CH P) (s : St P (BitVec 64)) (r : Nat) : Prop extends PInv t s r where
  sorted : t.keys.Pairwise (· ≤ ·)

theorem inv_new (r : Nat) : Inv (new r : CH P) empty r := by
  refine ⟨⟨rfl, fun p => by simp [new, empty, AMap.load, AMap.empty], fun p => by simp [new, empty], ?_, ?_, ?_, ?_, ?_⟩, ?_⟩
  · intro n; simp [new, empty, AMap.load, AMap.empty]
  · simp [empty]
  · simp [new]
  · simp [empty]
  · simp [new]
  · simp [new]

/-- The replica loop. -/
theorem addReplicas_spec (hash : List UInt8 → P) (key : BitVec 64) (l : List Nat) (t : CH P) :
    let t' := l.foldl (addReplica hash key) t
    t'.replicas = t.replicas ∧ t'.nodes = t.nodes ∧
    (∀ p, t'.m.load p = if p ∈ l.map (fun i => point hash i key) then some key else t.m.load p) ∧
    (∀ p, p ∈ t'.keys ↔ p ∈ l.map (fun i => point hash i key) ∨ p ∈ t.keys) ∧
    (t'.alloc = true ↔ t.alloc = true ∨ l ≠ []) := by
  induction l generalizing t with
  | nil => simp
  | cons i l ih =>
    obtain ⟨h1, h2, h3, h4, h5⟩ := ih (addReplica hash key t i)
    refine ⟨h1, h2, ?_, ?_, ?_⟩
    · intro p
      rw [List.foldl_cons, h3]
      simp only [addReplica, AMap.load_store, List.map_cons, List.mem_cons]
      by_cases hp : p = point hash i key
      · simp [hp]
      · simp [hp]
    · intro p
      rw [List.foldl_cons, h4]
      simp only [addReplica, List.mem_append, List.map_cons, List.mem_cons, List.not_mem_nil, or_false]
      tauto
    · rw [List.foldl_cons, h5]
      simp [addReplica]

theorem addKey_spec (hash : List UInt8 → P) {t : CH P} {s : St P (BitVec 64)} {r : Nat} (h : PInv t s r) (key : BitVec 64) :
    PInv (addKey hash t key) (add1 r (point hash) s key) r := by
  cases hk : t.nodes.load key with
  | some u =>
    have hm : key ∈ s.nodes := (h.nodes key).1 (by simp [hk])
    have e1 : addKey hash t key = t := by simp [addKey, hk]
    have e2 : add1 r (point hash) s key = s := by simp [add1, hm]
    rw [e1, e2]; exact h
  | none =>
    have hm : key ∉ s.nodes := fun hc => by
      have := (h.nodes key).2 hc
      rw [hk] at this; simp at this
    have e1 : addKey hash t key = (List.range r).foldl (addReplica hash key) { t with nodes := t.nodes.store key () } := by
      simp only [addKey, hk, h.rep]
    obtain ⟨h1, h2, h3, h4, h5⟩ := addReplicas_spec hash key (List.range r) { t with nodes := t.nodes.store key () }
    rw [e1]
    simp only [add1, hm, if_false]
    refine ⟨by rw [h1]; exact h.rep, ?_, ?_, ?_, ?_, ?_, ?_, ?_⟩
    · intro p
      rw [h3]
      split <;> simp_all [h.load]
    · intro p
      rw [h4]
      simp only []
      split
      · rename_i hp; simp [hp]
      · rename_i hp; simp [hp, h.mem p]
    · intro n
      rw [h2]
      simp only [AMap.load_store, List.mem_cons]
      by_cases hn : n = key
      · simp [hn]
      · simp [hn, h.nodes n]
    · intro p n hp
      simp only [] at hp
      split at hp
      · simp only [Option.some.injEq] at hp; simp [hp]
      · exact List.mem_cons_of_mem _ (h.own p n hp)
    · intro hne
      rw [h5]
      obtain ⟨p, hp⟩ := List.exists_mem_of_ne_nil _ hne
      rcases (h4 p).1 hp with hp | hp
      · right
        rintro hc
        rw [hc] at hp; simp at hp
      · left; exact h.alloc (List.ne_nil_of_mem hp)
    · intro hr _
      rw [h5]; right
      intro hc
      have := List.range_eq_nil.1 hc
      omega
    · rw [h5]
      rintro (ha | hne)
      · exact h.alloc0 ha
      · rcases Nat.eq_zero_or_pos r with hr | hr
        · subst hr; simp at hne
        · exact hr

theorem addKeys_spec (hash : List UInt8 → P) {r : Nat} (keys : List (BitVec 64)) {t : CH P} {s : St P (BitVec 64)} (h : PInv t s r) :
    PInv (keys.foldl (addKey hash) t) (keys.foldl (add1 r (point hash)) s) r := by
  induction keys generalizing t s with
  | nil => exact h
  | cons k ks ih => exact ih (addKey_spec hash h k)

theorem add_spec (hash : List UInt8 → P) {t : CH P} {s : St P (BitVec 64)} {r : Nat} (h : PInv t s r) (keys : List (BitVec 64)) :
    Inv (add hash t keys) (keys.foldl (add1 r (point hash)) s) r := by
  have h1 := addKeys_spec hash keys h
  refine ⟨⟨h1.rep, h1.load, ?_, h1.nodes, h1.own, ?_, h1.alloc', h1.alloc0⟩, sorted_sortKeys _⟩
  · intro p; rw [← h1.mem p]; exact mem_sortKeys p _
  · intro hne
    apply h1.alloc
    obtain ⟨p, hp⟩ := List.exists_mem_of_ne_nil _ hne
    exact List.ne_nil_of_mem ((mem_sortKeys p _).1 hp)

theorem load_foldl_delete (ks : List P) (m : AMap P (BitVec 64)) (p : P) :
    (ks.foldl AMap.delete m).load p = if p ∈ ks then none else m.load p := by
  induction ks generalizing m with
  | nil => simp
  | cons k ks ih =>
    rw [List.foldl_cons, ih, AMap.load_delete]
    by_cases hp : p = k
    · simp [hp]
    · simp [hp]

theorem del_spec {t : CH P} {s : St P (BitVec 64)} {r : Nat} (h : Inv t s r) (key : BitVec 64) :
    Inv (Consistenthash.del t key) (Spec.Ring.del s key) r := by
  cases hk : t.nodes.load key with
  | none =>
    have hm : key ∉ s.nodes := fun hc => by
      have := (h.nodes key).2 hc
      rw [hk] at this; simp at this
    have e1 : Consistenthash.del t key = t := by simp [Consistenthash.del, hk]
    have e2 : (Spec.Ring.del s key).ring = s.ring := by
      funext p
      simp only [Spec.Ring.del]
      rw [if_neg]
      intro hc; exact hm (h.own p key hc)
    have e3 : (Spec.Ring.del s key).nodes = s.nodes := by
      simp only [Spec.Ring.del]
      apply List.filter_eq_self.2
      intro n hn
      simp only [ne_eq, decide_not, Bool.not_eq_eq_eq_not, Bool.not_true, decide_eq_false_iff_not]
      rintro rfl; exact hm hn
    have e4 : Spec.Ring.del s key = s := by
      cases hs : Spec.Ring.del s key
      cases s
      simp_all
    rw [e1, e4]; exact h
  | some u =>
    have hent : ∀ p n, (p, n) ∈ t.m.entries ↔ s.ring p = some n := by
      intro p n; rw [AMap.mem_entries_iff, h.load]
    have hkeep : ∀ p, p ∈ (t.m.entries.filter fun q => q.2 ≠ key).map Prod.fst ↔ (Spec.Ring.del s key).ring p ≠ none := by
      intro p
      simp only [List.mem_map, List.mem_filter, Spec.Ring.del]
      constructor
      · rintro ⟨⟨p', n⟩, ⟨h1, h2⟩, rfl⟩
        simp only [ne_eq, decide_not, Bool.not_eq_eq_eq_not, Bool.not_true, decide_eq_false_iff_not] at h2
        rw [(hent p' n).1 h1]
        simp [h2]
      · intro hne
        split at hne
        · simp at hne
        · rename_i hn
          obtain ⟨n, hn'⟩ := Option.ne_none_iff_exists'.1 hne
          refine ⟨(p, n), ⟨(hent p n).2 hn', ?_⟩, rfl⟩
          simp only [ne_eq, decide_not, Bool.not_eq_eq_eq_not, Bool.not_true, decide_eq_false_iff_not]
          rintro rfl; exact hn hn'
    have hdrop : ∀ p, p ∈ (t.m.entries.filter fun q => q.2 = key).map Prod.fst ↔ s.ring p = some key := by
      intro p
      simp only [List.mem_map, List.mem_filter, decide_eq_true_eq]
      constructor
      · rintro ⟨⟨p', n⟩, ⟨h1, h2⟩, rfl⟩
        simp only at h2; subst h2
        exact (hent _ _).1 h1
      · intro hp; exact ⟨(p, key), ⟨(hent _ _).2 hp, rfl⟩, rfl⟩
    have e1 : Consistenthash.del t key = { t with
        keys := sortKeys ((t.m.entries.filter fun p => p.2 ≠ key).map Prod.fst)
        alloc := t.alloc || !((t.m.entries.filter fun p => p.2 ≠ key).map Prod.fst).isEmpty
        m := ((t.m.entries.filter fun p => p.2 = key).map Prod.fst).foldl AMap.delete t.m
        nodes := t.nodes.delete key } := by
      simp only [Consistenthash.del, hk]
    have hall : ((t.m.entries.filter fun p => p.2 ≠ key).map Prod.fst) ≠ [] → t.alloc = true := by
      intro hne
      apply h.alloc
      obtain ⟨p, hp⟩ := List.exists_mem_of_ne_nil _ hne
      have := (hkeep p).1 hp
      apply List.ne_nil_of_mem (a := p)
      rw [h.mem p]
      intro hc
      apply this
      simp [Spec.Ring.del, hc]
    rw [e1]
    refine ⟨⟨h.rep, ?_, ?_, ?_, ?_, ?_, ?_, ?_⟩, sorted_sortKeys _⟩
    · intro p
      rw [load_foldl_delete]
      simp only [Spec.Ring.del, ← h.load]
      by_cases hp : s.ring p = some key
      · rw [if_pos ((hdrop p).2 hp), if_pos (by rw [h.load]; exact hp)]
      · rw [if_neg (fun hc => hp ((hdrop p).1 hc)), if_neg (by rw [h.load]; exact hp)]
    · intro p; rw [← hkeep p]; exact mem_sortKeys p _
    · intro n
      simp only [AMap.load_delete, Spec.Ring.del, List.mem_filter]
      by_cases hn : n = key
      · simp [hn]
      · simp [hn, h.nodes n]
    · intro p n hp
      simp only [Spec.Ring.del] at hp ⊢
      split at hp
      · simp at hp
      · rename_i hne
        simp only [List.mem_filter]
        refine ⟨h.own p n hp, ?_⟩
        simp only [ne_eq, decide_not, Bool.not_eq_eq_eq_not, Bool.not_true, decide_eq_false_iff_not]
        rintro rfl; exact hne hp
    · intro hne
      obtain ⟨p, hp⟩ := List.exists_mem_of_ne_nil _ hne
      simp [hall (List.ne_nil_of_mem ((mem_sortKeys p _).1 hp))]
    · intro hr hne
      have : s.nodes ≠ [] := by
        intro hc
        apply hne
        simp [Spec.Ring.del, hc]
      simp [h.alloc' hr this]
    · intro ha
      simp only [Bool.or_eq_true, Bool.not_eq_eq_eq_not, Bool.not_true] at ha
      rcases ha with ha | ha
      · exact h.alloc0 ha
      · apply h.alloc0
        apply hall
        intro hc
        rw [hc] at ha; simp at ha

theorem step_spec (hash : List UInt8 → P) {t : CH P} {s : St P (BitVec 64)} {r : Nat} (h : Inv t s r) (o : Op (BitVec 64)) :
    Inv (Consistenthash.step hash t o) (Spec.Ring.step r (point hash) s o) r := by
  cases o with
  | add ks => exact add_spec hash h.toPInv ks
  | del k => exact del_spec h k

theorem foldl_spec (hash : List UInt8 → P) {r : Nat} (os : List (Op (BitVec 64))) {t : CH P} {s : St P (BitVec 64)} (h : Inv t s r) :
    Inv (os.foldl (Consistenthash.step hash) t) (os.foldl (Spec.Ring.step r (point hash)) s) r := by
  induction os generalizing t s with
  | nil => exact h
  | cons o os ih => exact ih (step_spec hash h o)

theorem exec_inv (hash : List UInt8 → P) (r : Nat) (os : List (Op (BitVec 64))) :
    Inv (Consistenthash.exec hash r os) (Spec.Ring.exec r (point hash) os) r :=
  foldl_spec hash os (inv_new r)

/-! ### Lookups -/

theorem succ_unique {N : Type} {ring : P → Option N} {x p q : P} (hp : IsSucc ring x p) (hq : IsSucc ring x q) : p = q := by
  obtain ⟨hp0, hp⟩ := hp
  obtain ⟨hq0, hq⟩ := hq
  rcases hp with ⟨h1, h2⟩ | ⟨h1, h2⟩ <;> rcases hq with ⟨h3, h4⟩ | ⟨h3, h4⟩
  · exact le_antisymm (h2 q hq0 h3) (h4 p hp0 h1)
  · exact absurd (h3 p hp0) (not_lt.2 h1)
  · exact absurd (h1 q hq0) (not_lt.2 h3)
  · exact le_antisymm (h2 q hq0) (h4 p hp0)

theorem owner_unique {N : Type} {ring : P → Option N} {x : P} {n n' : N} (h : Owner ring x n) (h' : Owner ring x n') : n = n' := by
  obtain ⟨p, h1, h2⟩ := h
  obtain ⟨q, h3, h4⟩ := h'
  obtain rfl := succ_unique h1 h3
  rw [h2] at h4
  exact Option.some.inj h4

/-- The point found by a lookup on a non-empty ring is the successor. -/
theorem lookup_succ {t : CH P} {s : St P (BitVec 64)} {r : Nat} (h : Inv t s r) (x : P) (hne : t.keys ≠ []) :
    ∃ p, t.keys[index t x]? = some p ∧ IsSucc s.ring x p ∧ index t x < t.keys.length := by
  obtain ⟨hlt, hc⟩ := index_spec t h.sorted x hne
  refine ⟨t.keys[index t x], List.getElem?_eq_getElem hlt, ⟨(h.mem _).1 (List.getElem_mem hlt), ?_⟩, hlt⟩
  rcases hc with ⟨h1, h2⟩ | ⟨h1, h2⟩
  · left
    refine ⟨h1, ?_⟩
    intro q hq hxq
    obtain ⟨j, hj, rfl⟩ := List.getElem_of_mem ((h.mem q).2 hq)
    apply getElem_le h.sorted _ hj
    by_contra hc
    exact absurd (h2 j (by omega)) (not_lt.2 hxq)
  · right
    refine ⟨?_, ?_⟩
    · intro q hq
      obtain ⟨j, hj, rfl⟩ := List.getElem_of_mem ((h.mem q).2 hq)
      exact h2 j hj
    · intro q hq
      obtain ⟨j, hj, rfl⟩ := List.getElem_of_mem ((h.mem q).2 hq)
      apply getElem_le h.sorted _ hj
      omega

theorem keys_nil_iff {t : CH P} {s : St P (BitVec 64)} {r : Nat} (h : PInv t s r) : t.keys = [] ↔ ∀ p, s.ring p = none := by
  constructor
  · intro hk p
    by_contra hc
    have := (h.mem p).2 hc
    rw [hk] at this; simp at this
  · intro hr
    apply List.eq_nil_iff_forall_not_mem.2
    intro p hp
    exact (h.mem p).1 hp (hr p)

theorem getPoint_spec {t : CH P} {s : St P (BitVec 64)} {r : Nat} (h : Inv t s r) (x : P) :
    (∀ n, getPoint t x = .node n ↔ Owner s.ring x n) ∧
    (getPoint t x = .panic ↔ t.alloc = true ∧ ∀ p, s.ring p = none) ∧
    (getPoint t x = .absent ↔ t.alloc = false) := by
  by_cases hne : t.keys = []
  · have hr := (keys_nil_iff h.toPInv).1 hne
    have hno : ∀ n, ¬ Owner s.ring x n := by
      rintro n ⟨p, _, hp⟩; rw [hr p] at hp; simp at hp
    cases ha : t.alloc with
    | false => simp [getPoint, ha, hno]
    | true => simp [getPoint, ha, hne, hno, hr]
  · have ha := h.alloc hne
    obtain ⟨p, h1, h2, _⟩ := lookup_succ h x hne
    obtain ⟨n, hn⟩ := Option.ne_none_iff_exists'.1 h2.1
    have e : getPoint t x = .node n := by
      simp [getPoint, ha, h1, h.load, hn]
    rw [e]
    refine ⟨?_, ?_, ?_⟩
    · intro n'
      simp only [Res.node.injEq]
      constructor
      · rintro rfl; exact ⟨p, h2, hn⟩
      · intro ho; exact owner_unique ⟨p, h2, hn⟩ ho
    · simp only [reduceCtorEq, false_iff, not_and]
      intro _ hc
      rw [hc p] at hn; simp at hn
    · simp [ha]

theorem owner_exists {t : CH P} {s : St P (BitVec 64)} {r : Nat} (h : Inv t s r) (x : P) (hne : ∃ p, s.ring p ≠ none) :
    ∃ n, Owner s.ring x n := by
  obtain ⟨p, hp⟩ := hne
  have hk : t.keys ≠ [] := List.ne_nil_of_mem ((h.mem p).2 hp)
  obtain ⟨q, _, h2, _⟩ := lookup_succ h x hk
  obtain ⟨n, hn⟩ := Option.ne_none_iff_exists'.1 h2.1
  exact ⟨n, q, h2, hn⟩

theorem owner_iff_of_ring {N : Type} {ring ring' : P → Option N} (h : ring = ring') (x : P) (n : N) : Owner ring x n ↔ Owner ring' x n := by
  rw [h]

/-! ### Collision-free rings -/

/-- The ring is determined by the node set. -/
def Det (r : Nat) (pt : Nat → BitVec 64 → P) (s : St P (BitVec 64)) : Prop :=
  ∀ p n, s.ring p = some n ↔ n ∈ s.nodes ∧ ∃ i < r, pt i n = p

theorem det_add1 {r : Nat} {pt : Nat → BitVec 64 → P} {s : St P (BitVec 64)} (h : Det r pt s) (key : BitVec 64)
    (hc : ∀ n ∈ s.nodes, ∀ i < r, ∀ j < r, pt i n = pt j key → n = key) : Det r pt (add1 r pt s key) := by
  intro p n
  by_cases hk : key ∈ s.nodes
  · rw [show add1 r pt s key = s by simp [add1, hk]]; exact h p n
  · simp only [add1, hk, if_false, List.mem_cons]
    by_cases hp : p ∈ (List.range r).map (fun i => pt i key)
    · rw [if_pos hp]
      obtain ⟨j, hj, rfl⟩ := List.mem_map.1 hp
      have hj' := List.mem_range.1 hj
      constructor
      · intro he
        obtain rfl := Option.some.inj he
        exact ⟨Or.inl rfl, j, hj', rfl⟩
      · rintro ⟨rfl | hn, i, hi, he⟩
        · rfl
        · rw [hc n hn i hi j hj' he]
    · rw [if_neg hp, h p n]
      constructor
      · rintro ⟨hn, hi⟩; exact ⟨Or.inr hn, hi⟩
      · rintro ⟨rfl | hn, i, hi, he⟩
        · exact absurd (List.mem_map.2 ⟨i, List.mem_range.2 hi, he⟩) hp
        · exact ⟨hn, i, hi, he⟩

theorem det_del {r : Nat} {pt : Nat → BitVec 64 → P} {s : St P (BitVec 64)} (h : Det r pt s) (key : BitVec 64) :
    Det r pt (Spec.Ring.del s key) := by
  intro p n
  simp only [Spec.Ring.del, List.mem_filter]
  by_cases hp : s.ring p = some key
  · rw [if_pos hp]
    simp only [reduceCtorEq, false_iff, not_and]
    rintro ⟨hn, hne⟩ hi
    have := (h p n).2 ⟨hn, hi⟩
    rw [hp] at this
    simp [Option.some.inj this] at hne
  · rw [if_neg hp, h p n]
    constructor
    · rintro ⟨hn, hi⟩
      refine ⟨⟨hn, ?_⟩, hi⟩
      simp only [ne_eq, decide_not, Bool.not_eq_eq_eq_not, Bool.not_true, decide_eq_false_iff_not]
      rintro rfl
      exact hp ((h p n).2 ⟨hn, hi⟩)
    · rintro ⟨⟨hn, _⟩, hi⟩; exact ⟨hn, hi⟩

theorem add1_nodes {r : Nat} {pt : Nat → BitVec 64 → P} {s : St P (BitVec 64)} {k n : BitVec 64} :
    n ∈ (add1 r pt s k).nodes ↔ n = k ∨ n ∈ s.nodes := by
  unfold add1
  split
  · constructor
    · exact Or.inr
    · rintro (rfl | h)
      · assumption
      · exact h
  · simp

theorem addAll_nodes {r : Nat} {pt : Nat → BitVec 64 → P} (ks : List (BitVec 64)) {s : St P (BitVec 64)} {n : BitVec 64} :
    n ∈ (ks.foldl (add1 r pt) s).nodes ↔ n ∈ ks ∨ n ∈ s.nodes := by
  induction ks generalizing s with
  | nil => simp
  | cons k ks ih => rw [List.foldl_cons, ih, add1_nodes, List.mem_cons]; tauto

theorem det_addAll {r : Nat} {pt : Nat → BitVec 64 → P} {all : List (BitVec 64)} (hcf : CollisionFree r pt all)
    (ks : List (BitVec 64)) {s : St P (BitVec 64)} (h : Det r pt s) (hs : ∀ n ∈ s.nodes, n ∈ all) (hks : ∀ k ∈ ks, k ∈ all) :
    Det r pt (ks.foldl (add1 r pt) s) := by
  induction ks generalizing s with
  | nil => exact h
  | cons k ks ih =>
    rw [List.foldl_cons]
    apply ih (det_add1 h k fun n hn i hi j hj he => hcf n (hs n hn) k (hks k (by simp)) i hi j hj he)
    · intro n hn
      rcases add1_nodes.1 hn with rfl | hn
      · exact hks n (by simp)
      · exact hs n hn
    · intro x hx; exact hks x (List.mem_cons_of_mem _ hx)

theorem det_foldl {r : Nat} {pt : Nat → BitVec 64 → P} {all : List (BitVec 64)} (hcf : CollisionFree r pt all)
    (os : List (Op (BitVec 64))) {s : St P (BitVec 64)} (h : Det r pt s) (hs : ∀ n ∈ s.nodes, n ∈ all) (hos : ∀ k ∈ added os, k ∈ all) :
    Det r pt (os.foldl (Spec.Ring.step r pt) s) := by
  induction os generalizing s with
  | nil => exact h
  | cons o os ih =>
    rw [List.foldl_cons]
    cases o with
    | add ks =>
      apply ih
      · exact det_addAll hcf ks h hs fun k hk => hos k (List.mem_append_left _ hk)
      · intro n hn
        rcases (addAll_nodes ks).1 hn with hn | hn
        · exact hos n (List.mem_append_left _ hn)
        · exact hs n hn
      · intro k hk; exact hos k (List.mem_append_right _ hk)
    | del key =>
      apply ih (det_del h key)
      · intro n hn; exact hs n (List.mem_of_mem_filter hn)
      · exact hos

theorem det_exec {r : Nat} {pt : Nat → BitVec 64 → P} (os : List (Op (BitVec 64))) (hcf : CollisionFree r pt (added os)) :
    Det r pt (Spec.Ring.exec r pt os) :=
  det_foldl hcf os (s := empty) (by intro p n; simp [empty]) (by simp [empty]) fun k hk => hk

theorem alloc_mono_addKey (hash : List UInt8 → P) {t : CH P} (k : BitVec 64) (h : t.alloc = true) : (addKey hash t k).alloc = true := by
  unfold addKey
  split
  · exact h
  · rw [(addReplicas_spec hash k _ _).2.2.2.2]; exact Or.inl h

theorem alloc_mono_addKeys (hash : List UInt8 → P) (ks : List (BitVec 64)) {t : CH P} (h : t.alloc = true) :
    (ks.foldl (addKey hash) t).alloc = true := by
  induction ks generalizing t with
  | nil => exact h
  | cons k ks ih => exact ih (alloc_mono_addKey hash k h)

theorem alloc_mono_step (hash : List UInt8 → P) {t : CH P} (o : Op (BitVec 64)) (h : t.alloc = true) : (Consistenthash.step hash t o).alloc = true := by
  cases o with
  | add ks => exact alloc_mono_addKeys hash ks h
  | del k =>
    simp only [Consistenthash.step, Consistenthash.del]
    split <;> simp [h]

theorem alloc_mono (hash : List UInt8 → P) (os : List (Op (BitVec 64))) {t : CH P} (h : t.alloc = true) :
    (os.foldl (Consistenthash.step hash) t).alloc = true := by
  induction os generalizing t with
  | nil => exact h
  | cons o os ih => exact ih (alloc_mono_step hash o h)

theorem alloc_iff (hash : List UInt8 → P) (r : Nat) (os : List (Op (BitVec 64))) {t : CH P} {s : St P (BitVec 64)} (h : Inv t s r) :
    (os.foldl (Consistenthash.step hash) t).alloc = true ↔ t.alloc = true ∨ (0 < r ∧ everAdded os) := by
  induction os generalizing t s with
  | nil => simp [everAdded, added]
  | cons o os ih =>
    rw [List.foldl_cons, ih (step_spec hash h o)]
    cases o with
    | add ks =>
      cases ks with
      | nil => simp [Consistenthash.step, add, everAdded, added]
      | cons k ks =>
        constructor
        · rintro (ha | ⟨hr, _⟩)
          · by_cases hr : 0 < r
            · right; exact ⟨hr, by simp [everAdded, added]⟩
            · exact absurd ((step_spec hash h (.add (k :: ks))).alloc0 ha) hr
          · right; exact ⟨hr, by simp [everAdded, added]⟩
        · rintro (ha | ⟨hr, _⟩)
          · left; exact alloc_mono_step hash _ ha
          · left
            refine (step_spec hash h (.add (k :: ks))).alloc' hr ?_
            have : k ∈ ((k :: ks).foldl (add1 r (point hash)) s).nodes := (addAll_nodes (k :: ks)).2 (Or.inl (by simp))
            exact List.ne_nil_of_mem this
    | del k =>
      have : (Consistenthash.step hash t (.del k)).alloc = true ↔ t.alloc = true := by
        constructor
        · intro ha
          by_contra hc
          have hkn : t.keys = [] := by
            by_contra hk; exact hc (h.alloc hk)
          have hm : t.m.entries = [] := by
            apply List.eq_nil_iff_forall_not_mem.2
            rintro ⟨p, n⟩ hp
            have := (AMap.mem_entries_iff t.m p n).1 hp
            rw [h.load, (keys_nil_iff h.toPInv).1 hkn p] at this
            simp at this
          have hf : t.alloc = false := by simpa using hc
          simp only [Consistenthash.step, Consistenthash.del] at ha
          split at ha
          · simp [hm, hf] at ha
          · exact hc ha
        · exact alloc_mono_step hash _
      rw [this]; rfl

/-! ### Disruption -/

theorem getPoint_congr {t t' : CH P} {s s' : St P (BitVec 64)} {r r' : Nat} (h : Inv t s r) (h' : Inv t' s' r')
    (hr : s.ring = s'.ring) (ha : t.alloc = t'.alloc) (x : P) : getPoint t x = getPoint t' x := by
  obtain ⟨h1, h2, h3⟩ := getPoint_spec h x
  obtain ⟨k1, k2, k3⟩ := getPoint_spec h' x
  cases he : getPoint t x with
  | absent => exact (k3.2 (ha ▸ h3.1 he)).symm
  | node n => exact ((k1 n).2 (hr ▸ (h1 n).1 he)).symm
  | panic => exact (k2.2 (ha ▸ hr ▸ h2.1 he)).symm

theorem owner_of_superset {ring ring' : P → Option (BitVec 64)} {x : P} {n : BitVec 64}
    (hsub : ∀ q, ring q ≠ none → ring' q ≠ none) (h : Owner ring' x n)
    (hn : ∀ q, ring' q = some n → ring q = some n) : Owner ring x n := by
  obtain ⟨p, ⟨_, h1⟩, h2⟩ := h
  have hp := hn p h2
  refine ⟨p, ⟨by rw [hp]; simp, ?_⟩, hp⟩
  rcases h1 with ⟨h3, h4⟩ | ⟨h3, h4⟩
  · exact Or.inl ⟨h3, fun q hq hx => h4 q (hsub q hq) hx⟩
  · exact Or.inr ⟨fun q hq => h3 q (hsub q hq), fun q hq => h4 q (hsub q hq)⟩

theorem addAll_ring {r : Nat} {pt : Nat → BitVec 64 → P} (ks : List (BitVec 64)) (s : St P (BitVec 64)) :
    (∀ p n, (ks.foldl (add1 r pt) s).ring p = some n → n ∈ ks ∨ s.ring p = some n) ∧
    (∀ p, s.ring p ≠ none → (ks.foldl (add1 r pt) s).ring p ≠ none) ∧
    (∀ k ∈ ks, k ∉ s.nodes → 0 < r → ∃ p, (ks.foldl (add1 r pt) s).ring p ≠ none) := by
  induction ks generalizing s with
  | nil => exact ⟨fun p n h => Or.inr h, fun p h => h, by simp⟩
  | cons k ks ih =>
    obtain ⟨h1, h2, h3⟩ := ih (add1 r pt s k)
    have hmono : ∀ p, s.ring p ≠ none → (add1 r pt s k).ring p ≠ none := by
      intro p hp
      unfold add1
      split
      · exact hp
      · simp only []
        split
        · simp
        · exact hp
    refine ⟨?_, fun p hp => h2 p (hmono p hp), ?_⟩
    · intro p n h
      rcases h1 p n h with h | h
      · exact Or.inl (List.mem_cons_of_mem _ h)
      · unfold add1 at h
        split at h
        · exact Or.inr h
        · simp only [] at h
          split at h
          · left; rw [← Option.some.inj h]; simp
          · exact Or.inr h
    · intro x hx hxn hr
      by_cases hk : k ∈ s.nodes
      · rcases List.mem_cons.1 hx with rfl | hx
        · exact absurd hk hxn
        · refine h3 x hx ?_ hr
          rw [show add1 r pt s k = s by simp [add1, hk]]
          exact hxn
      · refine ⟨pt 0 k, h2 _ ?_⟩
        simp only [add1, hk, if_false]
        rw [if_pos (List.mem_map.2 ⟨0, List.mem_range.2 hr, rfl⟩)]
        simp

theorem add_disruption (hash : List UInt8 → P) {t : CH P} {s : St P (BitVec 64)} {r : Nat} (h : Inv t s r) (ks : List (BitVec 64))
    (h' : Inv (Consistenthash.step hash t (.add ks)) (Spec.Ring.step r (point hash) s (.add ks)) r) (x : P) :
    getPoint (Consistenthash.step hash t (.add ks)) x = getPoint t x ∨
    ∃ n ∈ ks, getPoint (Consistenthash.step hash t (.add ks)) x = .node n := by
  obtain ⟨r1, r2, r3⟩ := addAll_ring (r := r) (pt := point hash) ks s
  obtain ⟨h1, h2, h3⟩ := getPoint_spec h x
  obtain ⟨k1, k2, k3⟩ := getPoint_spec h' x
  cases he : getPoint (Consistenthash.step hash t (.add ks)) x with
  | absent =>
    left
    refine (h3.2 ?_).symm
    by_contra hc
    have := alloc_mono_step hash (.add ks) (t := t) (by simpa using hc)
    rw [k3.1 he] at this; simp at this
  | node n =>
    by_cases hn : n ∈ ks
    · right; exact ⟨n, hn, rfl⟩
    · left
      refine ((h1 n).2 ?_).symm
      refine owner_of_superset r2 ((k1 n).1 he) ?_
      intro q hq
      rcases r1 q n hq with h | h
      · exact absurd h hn
      · exact h
  | panic =>
    left
    obtain ⟨ha, hnone⟩ := k2.1 he
    refine (h2.2 ⟨?_, ?_⟩).symm
    · cases ks with
      | nil => exact ha
      | cons k ks =>
        by_contra hc
        have hr := h'.alloc0 ha
        have hk : k ∉ s.nodes := fun hk => hc (h.alloc' hr (List.ne_nil_of_mem hk))
        obtain ⟨p, hp⟩ := r3 k (by simp) hk hr
        exact hp (hnone p)
    · intro p
      by_contra hc
      exact r2 p hc (hnone p)

theorem del_disruption (hash : List UInt8 → P) {t : CH P} {s : St P (BitVec 64)} {r : Nat} (h : Inv t s r) (n : BitVec 64)
    (h' : Inv (Consistenthash.step hash t (.del n)) (Spec.Ring.step r (point hash) s (.del n)) r) (x : P)
    (hne : getPoint t x ≠ .node n) :
    getPoint (Consistenthash.step hash t (.del n)) x = getPoint t x := by
  have hsub : ∀ q, (Spec.Ring.del s n).ring q ≠ none → s.ring q ≠ none := by
    intro q hq hc
    apply hq
    simp [Spec.Ring.del, hc]
  obtain ⟨h1, h2, h3⟩ := getPoint_spec h x
  obtain ⟨k1, k2, k3⟩ := getPoint_spec h' x
  cases he : getPoint t x with
  | absent =>
    refine k3.2 ?_
    have ha := h3.1 he
    have := alloc_iff hash r [.del n] h
    simp only [List.foldl_cons, List.foldl_nil, ha, everAdded, added, ne_eq, not_true_eq_false, and_false, or_false, Bool.false_eq_true, iff_false,
      Bool.not_eq_true] at this
    exact this
  | node m =>
    have hmn : m ≠ n := by
      rintro rfl; exact hne he
    refine (k1 m).2 ?_
    obtain ⟨p, ⟨h4, h5⟩, h6⟩ := (h1 m).1 he
    have hp : (Spec.Ring.del s n).ring p = some m := by
      simp only [Spec.Ring.del]
      rw [if_neg, h6]
      rw [h6]; intro hc; exact hmn (Option.some.inj hc)
    refine ⟨p, ⟨by rw [show (Spec.Ring.step r (point hash) s (.del n)).ring p = some m from hp]; simp, ?_⟩, hp⟩
    rcases h5 with ⟨h7, h8⟩ | ⟨h7, h8⟩
    · exact Or.inl ⟨h7, fun q hq hx => h8 q (hsub q hq) hx⟩
    · exact Or.inr ⟨fun q hq => h7 q (hsub q hq), fun q hq => h8 q (hsub q hq)⟩
  | panic =>
    obtain ⟨ha, hnone⟩ := h2.1 he
    refine k2.2 ⟨alloc_mono_step hash _ ha, ?_⟩
    intro p
    by_contra hc
    exact hsub p hc (hnone p)

/-- The owned points above `p`, in order. -/
theorem sorted_points {t : CH P} {s : St P (BitVec 64)} {r : Nat} (h : Inv t s r) (p : P) :
    ∃ l : List P, l.Pairwise (· < ·) ∧ ∀ q, q ∈ l ↔ s.ring q ≠ none ∧ p < q := by
  refine ⟨(t.keys.dedup).filter (p < ·), ?_, ?_⟩
  · apply List.Pairwise.filter
    have h1 : t.keys.dedup.Pairwise (· ≤ ·) := h.sorted.sublist (List.dedup_sublist _)
    have h2 := List.nodup_dedup t.keys
    exact (h1.and h2).imp fun ⟨a, b⟩ => lt_of_le_of_ne a b
  · intro q
    simp [List.mem_filter, List.mem_dedup, h.mem q]

end Gofer.Consistenthash
