import Verif.Proof.RaceCode
import Verif.Proof.RaceLinked
/-! # Properties C165-C170: data races -/
namespace Gofer.Props.Race
open Gofer.Race

/-! ## C165: the containers with a mutex -/

/-- LimitMap. -/
theorem C165_limitMap (x : LimitMapR.Loc) : FreeOn LimitMapR.code (fun _ => True) x :=
  freeOn (fun _ => .guarded ()) (by simp) (fun op _ => by cases op <;> rfl) (by simp)

/-- LruCache. -/
theorem C165_lruCache (x : LruCacheR.Loc) : FreeOn LruCacheR.code (fun _ => True) x :=
  freeOn (fun _ => .guarded ()) (by simp) (fun op _ => by cases op <;> rfl) (by simp)

/-- TreeMap, iterations included, as long as the callback does not use the map. -/
theorem C165_treeMap (x : TreeMapR.Loc) : FreeOn TreeMapR.code (fun _ => True) x :=
  freeOn (fun _ => .guarded ()) (by simp) (fun op _ => by cases op <;> rfl) (by simp)

/-- Consistenthash. -/
theorem C165_consistenthash (x : ConsistenthashR.Loc) : FreeOn ConsistenthashR.code (fun _ => True) x :=
  freeOn (fun y => match y with | .ring _ => .atomic | _ => .guarded ()) (by intro y; cases y <;> simp)
    (fun op _ => by
      cases op <;> simp [ConsistenthashR.code, Code.ok, all_ok, Code.all, Code.opt])
    (by cases x <;> simp)

/-- LimitHashMap with any number of segments; keys in any segments. -/
theorem C165_limitHashMap (x : LimitHashMapR.Loc) : FreeOn LimitHashMapR.code (fun _ => True) x :=
  freeOn (fun y => match y with | .cache s => .guarded s | .order s => .guarded s | .entries s => .guarded s)
    (by intro y; cases y <;> simp)
    (fun op _ => by cases op <;> simp [LimitHashMapR.code, Code.ok, all_ok, Code.all, Code.opt])
    (by cases x <;> simp)

/-- The credential store. -/
theorem C165_storeAdmin (x : StoreAdminR.Loc) : FreeOn StoreAdminR.code (fun _ => True) x :=
  freeOn (fun _ => .guarded ()) (by simp) (fun op _ => by cases op <;> rfl) (by simp)

/-- Two readers and a writer: an execution the theorem speaks of. -/
def limitMapTr : Trace Unit LimitMapR.Loc Unit :=
  [(0, .rlock ()), (1, .rlock ()), (0, .rd .cache ()), (1, .rd .cache ()), (0, .runlock ()), (1, .runlock ()), (2, .lock ()), (2, .rd .cache ()),
    (2, .rd .order ()), (2, .wr .order ()), (2, .wr .cache ())]

example : (exec (St.init fun _ => ()) limitMapTr).isSome = true := by decide +kernel

example : Follows (Calls LimitMapR.code fun _ => True) limitMapTr :=
  follows_of [[(.len, [])], [(.len, [])], [(.del, [true])]] (by decide) (by decide) (by decide)

/-- Goroutines in different segments do not wait for each other. -/
def limitHashMapTr : Trace Nat LimitHashMapR.Loc Unit :=
  [(0, .lock 0), (1, .lock 1), (0, .wr (.cache 0) ()), (1, .rd (.cache 1) ()), (1, .rd (.order 1) ()), (1, .wr (.order 1) ()), (0, .rd (.order 0) ())]

example : (exec (St.init fun _ => ()) limitHashMapTr).isSome = true := by decide +kernel

example : Follows (Calls LimitHashMapR.code fun _ => True) limitHashMapTr :=
  follows_of [[(.clear 2, [])], [(.del 1, [true])]] (by decide) (by decide) (by decide)

/-! ## C166: LinkedHashMap -/
section
open Gofer.Race.Linked

/-- All methods of LinkedHashMap can be called at the same time without a data race. -/
def C166_claim : Prop := ∀ x, RaceFreeOn (fun l => ∃ op, True ∧ Runs op l) mem0 isCell x

/-- `Get` has read the pointer to the `sync.Map`, `Clear` replaces it. -/
def clearTr : Trace Unit Loc Val := [(0, .rd .m (.gen 0)), (1, .lock ()), (1, .wr .m (.gen 1))]

/-- A `Get` while `Clear` runs is a data race on the pointer to the `sync.Map`. -/
theorem C166_claim_false : ¬ C166_claim := by
  intro h
  refine h .m clearTr _ (Option.eq_some_of_isSome (by decide +kernel)) ?_ ?_ ?_
  · intro x hx i j t u v v' h1 h2
    have hm : (t, Act.wr x v) ∈ clearTr := List.mem_of_getElem? h1
    cases x <;> simp [clearTr, isCell] at hm hx
  · intro t
    match t with
    | 0 => exact ⟨[_], by simp only [List.mem_singleton, forall_eq]; exact ⟨_, trivial, .getNone 0 0⟩, by decide⟩
    | 1 => exact ⟨[_], by simp only [List.mem_singleton, forall_eq]; exact ⟨_, trivial, .clear 1 []⟩, by decide⟩
    | t + 2 => exact ⟨[], by simp, by simp [proj, clearTr]⟩
  · exact race_of_last (i := 0) (j := 2) (by decide) rfl rfl (by decide) rfl rfl (.inr rfl) (by decide)

/-- That is the only one: there is never a race on anything else, so elements, entries, the list, the counter and the iterators are read and written in order. -/
theorem C166_only_pointer_partial (x : Loc) (hx : x ≠ .m) : RaceFreeOn (fun l => ∃ op, True ∧ Runs op l) mem0 isCell x :=
  free_linked (km := .free) (by simp) (by simp) (by simp) (by simp) (by cases x <;> simp_all [kind])

/-- Without `Clear` there is no race, though `Get` takes no mutex. -/
theorem C166_without_clear_partial (x : Loc) : RaceFreeOn (fun l => ∃ op, op ≠ .clear ∧ Runs op l) mem0 isCell x :=
  free_linked (km := .frozen) (by simp) (by simp) (by simp) (by simp) (by cases x <;> simp [kind])

/-- Without `Get` there is no race. -/
theorem C166_without_get_partial (x : Loc) : RaceFreeOn (fun l => ∃ op, op ≠ .get ∧ Runs op l) mem0 isCell x :=
  free_linked (km := .guarded ()) (by simp) (by simp) (by simp) (by simp) (by cases x <;> simp [kind])

/-- A `Get` follows the pointers a `Put` under way has just stored. -/
def putGetTr : Trace Unit Loc Val :=
  [(0, .wr (.kv 0) (.key 5)), (0, .lock ()), (1, .rd .m (.gen 0)), (0, .wr (.el 0) (.ptr 0)), (0, .rd .list (.els [])), (0, .wr .list (.els [0])),
    (0, .rd .m (.gen 0)), (0, .armw (.slot 0 5) (.elem none) (.elem (some 0))), (1, .aload (.slot 0 5) (.elem (some 0))), (1, .rd (.el 0) (.ptr 0)),
    (0, .rd .count .unit), (1, .rd (.kv 0) (.key 5))]

example : (exec (St.init mem0) putGetTr).isSome = true := by decide +kernel

example : Follows (fun l => ∃ op, op ≠ .clear ∧ Runs op l) putGetTr := by
  intro t
  match t with
  | 0 => exact ⟨[_], by simp only [List.mem_singleton, forall_eq]; exact ⟨.put, by decide, .putNew 5 0 0 0 []⟩, by decide⟩
  | 1 => exact ⟨[_], by simp only [List.mem_singleton, forall_eq]; exact ⟨.get, by decide, .getSome 0 5 0 0 5⟩, by decide⟩
  | t + 2 => exact ⟨[], by simp, by simp [proj, putGetTr]⟩

end

/-! ## C167: the counters of MapL and LimitLock -/

/-- All methods of MapL and of LimitLock can be called at the same time without a data race. -/
def C167_claim : Prop := (∀ x, FreeOn MapR.code (fun _ => True) x) ∧ ∀ x, FreeOn LimitLockR.code (fun _ => True) x

/-- `MapL.Len` while a `Put` adds a key is a data race on the counter. -/
theorem C167_mapL_false : ¬ FreeOn MapR.code (fun _ => True) .len := by
  intro h
  refine h [(0, .rd .len ()), (1, .armw (.slot 0) () ()), (1, .armw .len () ())] _ (Option.eq_some_of_isSome (by decide +kernel))
    (fun _ h => h.elim) ?_ ?_
  · exact follows_of [[(.len, [])], [(.put 0, [true])]] (by decide) (by decide) (by decide)
  · exact race_of_last (i := 0) (j := 2) (by decide) rfl rfl (by decide) rfl rfl (.inr rfl) (by decide)

/-- `LimitLock.Cc` while another goroutine locks is a data race on the counter. -/
theorem C167_limitLock_false : ¬ FreeOn LimitLockR.code (fun _ => True) .count := by
  intro h
  refine h [(0, .rd .count ()), (1, .chan .ch), (1, .armw .count () ())] _ (Option.eq_some_of_isSome (by decide +kernel))
    (fun _ h => h.elim) ?_ ?_
  · exact follows_of [[(.cc, [])], [(.lock, [true])]] (by decide) (by decide) (by decide)
  · exact race_of_last (i := 0) (j := 2) (by decide) rfl rfl (by decide) rfl rfl (.inr rfl) (by decide)

theorem C167_claim_false : ¬ C167_claim := fun h => C167_mapL_false (h.1 _)

/-- Only the counter of MapL is concerned; without calls of `Len` nothing is. -/
theorem C167_mapL_partial (x : MapR.Loc) :
    (x ≠ .len → FreeOn MapR.code (fun _ => True) x) ∧ FreeOn MapR.code (fun op => op ≠ .len) x := by
  constructor
  · intro hx
    exact freeOn (fun y => match y with | .slot _ => .atomic | .len => .free) (by intro y; cases y <;> simp)
      (fun op _ => by cases op <;> simp [MapR.code, Code.ok, all_ok, Code.all, Code.opt])
      (by cases x <;> simp_all)
  · exact freeOn (fun _ => .atomic) (by simp)
      (fun op h => by cases op <;> simp_all [MapR.code, Code.ok, all_ok, Code.all, Code.opt])
      (by cases x <;> simp_all)

/-- Without calls of `Cc` there is no race in LimitLock; `LockCount` is safe. -/
theorem C167_limitLock_partial (x : LimitLockR.Loc) : FreeOn LimitLockR.code (fun op => op ≠ .cc) x :=
  freeOn (fun _ => .atomic) (by simp) (fun op h => by cases op <;> first | rfl | exact absurd rfl h) (by simp)

/-! ## C168: BloomFilter -/

/-- The methods of a Bloom filter can be called at the same time without a data race. -/
def C168_claim : Prop := ∀ x, FreeOn BloomR.code (fun _ => True) x

/-- Two `Add`s that fall into one word. -/
def bloomTr : Trace Unit BloomR.Loc Unit :=
  [(0, .armw .num () ()), (1, .armw .num () ()), (0, .aload .num ()), (0, .rd (.hdr 0) ()), (0, .rd (.hdr 0) ()), (0, .rd (.word 0 3) ()),
    (1, .aload .num ()), (1, .rd (.hdr 0) ()), (1, .rd (.hdr 0) ()), (0, .wr (.word 0 3) ()), (1, .rd (.word 0 3) ()), (1, .wr (.word 0 3) ())]

/-- Two `Add`s race on a word of the bit array. -/
theorem C168_claim_false : ¬ C168_claim := by
  intro h
  refine h (.word 0 3) bloomTr _ (Option.eq_some_of_isSome (by decide +kernel)) (fun _ h => h.elim) ?_ ?_
  · exact follows_of [[(.add 0 [3], [false])], [(.add 0 [3], [false])]] (by decide) (by decide) (by decide)
  · exact race_of_last (i := 9) (j := 10) (by decide) rfl rfl (by decide) rfl rfl (.inl rfl) (by decide)

/-- An `Add` and a `Contains` race as well. -/
theorem C168_contains_false : ¬ FreeOn BloomR.code (fun _ => True) (.word 0 3) := by
  intro h
  refine h [(0, .armw .num () ()), (0, .aload .num ()), (0, .rd (.hdr 0) ()), (0, .rd (.hdr 0) ()), (0, .rd (.word 0 3) ()),
    (1, .aload .num ()), (1, .rd (.hdr 0) ()), (1, .rd (.hdr 0) ()), (1, .rd (.word 0 3) ()), (0, .wr (.word 0 3) ())]
    _ (Option.eq_some_of_isSome (by decide +kernel)) (fun _ h => h.elim) ?_ ?_
  · exact follows_of [[(.add 0 [3], [false])], [(.contains 0 [3], [false, false])]] (by decide) (by decide) (by decide)
  · exact race_of_last (i := 8) (j := 9) (by decide) rfl rfl (by decide) rfl rfl (.inr rfl) (by decide)

/-- When a segment is used for the first time its slice is a race, too: it is tested outside the mutex. -/
theorem C168_segment_false : ¬ FreeOn BloomR.code (fun _ => True) (.hdr 1) := by
  intro h
  refine h [(0, .armw .num () ()), (0, .aload .num ()), (1, .armw .num () ()), (1, .aload .num ()), (1, .rd (.hdr 1) ()), (0, .rd (.hdr 1) ()),
    (0, .lock ()), (0, .rd (.hdr 1) ()), (0, .wr (.hdr 1) ())]
    _ (Option.eq_some_of_isSome (by decide +kernel)) (fun _ h => h.elim) ?_ ?_
  · exact follows_of [[(.add 1 [3], [true, true, false])], [(.add 1 [3], [false])]] (by decide) (by decide) (by decide)
  · exact race_of_last (i := 4) (j := 8) (by decide) rfl rfl (by decide) rfl rfl (.inr rfl) (by decide)

/-- The count of items, which selects the segment, is safe. -/
theorem C168_count_partial : FreeOn BloomR.code (fun _ => True) .num :=
  freeOn (fun y => match y with | .num => .atomic | _ => .free) (by intro y; cases y <;> simp)
    (fun op _ => by cases op <;> simp [BloomR.code, BloomR.index, Code.ok, all_ok, Code.all, Code.opt])
    (by simp)

/-! ## C169: the WebSocket handler -/

/-- The methods of a handler can be called at the same time, while its own goroutine reads, without a data race. -/
def C169_claim : Prop := ∀ x, FreeOn HandlerR.code (fun _ => True) x

/-- `Send` and `Error` race with `Close`, and with the reading goroutine that notices the end of the connection. -/
theorem C169_claim_false : ¬ C169_claim ∧ ¬ FreeOn HandlerR.code (fun op => op = .send ∨ op = .read) .err := by
  have w : ¬ FreeOn HandlerR.code (fun op => op = .send ∨ op = .read) .err := by
    intro h
    refine h [(0, .rd .err ()), (1, .wr .err ())] _ (Option.eq_some_of_isSome (by decide +kernel)) (fun _ h => h.elim) ?_ ?_
    · exact follows_of [[(.send, [true])], [(.read, [false, true])]] (by decide) (by decide) (by decide)
    · exact race_of_last (i := 0) (j := 1) (by decide) rfl rfl (by decide) rfl rfl (.inr rfl) (by decide)
  refine ⟨fun h => w fun tr s he hf hs => h .err tr s he hf fun t => ?_, w⟩
  obtain ⟨calls, h1, h2⟩ := hs t
  exact ⟨calls, fun c hc => let ⟨op, _, h⟩ := h1 c hc; ⟨op, trivial, h⟩, h2⟩

/-- The connection is only written under the mutex: the sends do not race with each other, nor with anything else. -/
theorem C169_send_partial : FreeOn HandlerR.code (fun _ => True) .conn :=
  freeOn (fun y => match y with | .conn => .guarded () | .err => .free) (by intro y; cases y <;> simp)
    (fun op _ => by cases op <;> rfl) (by simp)

/-! ## C170: GoPool -/

/-- The methods of a pool can be called at the same time without a data race. -/
def C170_claim : Prop := ∀ x, FreeOn GoPoolR.code (fun _ => True) x

/-- The dispatcher looks at `tnum` without synchronisation while another `Go` adds to it. -/
def poolTr : Trace Unit GoPoolR.Loc Unit :=
  [(0, .rd .close ()), (0, .chan .funcnPool), (0, .armw .tnum () ()), (1, .lock ()), (1, .chan .funcnPool), (1, .rd .close ()),
    (1, .armw .tnum () ()), (1, .rd .tnum ()), (2, .rd .close ()), (2, .chan .funcnPool), (2, .armw .tnum () ())]

/-- Even when nothing but `Go` is called. -/
theorem C170_go_false : ¬ FreeOn GoPoolR.code (fun op => op = .go ∨ ∃ ns, op = .dispatch ns) .tnum := by
  intro h
  refine h poolTr _ (Option.eq_some_of_isSome (by decide +kernel)) (fun _ h => h.elim) ?_ ?_
  · refine follows_of [[(.go, [true])], [(.dispatch [], [true, false, true, false])], [(.go, [true])]] ?_ (by decide) (by decide)
    intro l hl p hp
    simp only [List.mem_cons, List.not_mem_nil, or_false] at hl
    rcases hl with rfl | rfl | rfl <;> simp only [List.mem_singleton] at hp <;> subst hp
    · exact ⟨.inl rfl, by decide⟩
    · exact ⟨.inr ⟨_, rfl⟩, by decide⟩
    · exact ⟨.inl rfl, by decide⟩
  · exact race_of_last (i := 7) (j := 10) (by decide) rfl rfl (by decide) rfl rfl (.inr rfl) (by decide)

/-- `NumUnExecu` and `Go`; `Close` and `Go`. -/
theorem C170_claim_false : ¬ C170_claim ∧ ¬ FreeOn GoPoolR.code (fun _ => True) .tnum ∧ ¬ FreeOn GoPoolR.code (fun _ => True) .close := by
  have w1 : ¬ FreeOn GoPoolR.code (fun _ => True) .tnum := by
    intro h
    refine h [(0, .rd .tnum ()), (1, .rd .close ()), (1, .chan .funcnPool), (1, .armw .tnum () ())] _
      (Option.eq_some_of_isSome (by decide +kernel)) (fun _ h => h.elim) ?_ ?_
    · exact follows_of [[(.numUnExecu, [])], [(.go, [true])]] (by decide) (by decide) (by decide)
    · exact race_of_last (i := 0) (j := 3) (by decide) rfl rfl (by decide) rfl rfl (.inr rfl) (by decide)
  have w2 : ¬ FreeOn GoPoolR.code (fun _ => True) .close := by
    intro h
    refine h [(0, .rd .close ()), (1, .armw .closeflag () ()), (1, .wr .close ())] _
      (Option.eq_some_of_isSome (by decide +kernel)) (fun _ h => h.elim) ?_ ?_
    · exact follows_of [[(.go, [false])], [(.close, [true])]] (by decide) (by decide) (by decide)
    · exact race_of_last (i := 0) (j := 2) (by decide) rfl rfl (by decide) rfl rfl (.inr rfl) (by decide)
  exact ⟨fun h => w1 (h _), w1, w2⟩

/-- These two fields are the only ones: the number of workers, the worker ids and the flag of `Close` are safe. -/
theorem C170_rest_partial (x : GoPoolR.Loc) (h1 : x ≠ .tnum) (h2 : x ≠ .close) : FreeOn GoPoolR.code (fun _ => True) x :=
  freeOn (fun y => match y with | .tnum => .free | .close => .free | .id => .guarded () | _ => .atomic) (by intro y; cases y <;> simp)
    (fun op _ => by cases op <;> simp [GoPoolR.code, Code.ok, all_ok, Code.all, Code.opt])
    (by cases x <;> simp_all)

end Gofer.Props.Race
