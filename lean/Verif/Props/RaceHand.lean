import Verif.Proof.RaceAwait
import Verif.Proof.RaceHand
import Verif.Props.Race
/-!
# Property theorems: data races of `Await` and `FastAwait` (C227), records handed over (C228, C229, C230)
-/
namespace Gofer.Props.RaceHand
open Gofer.Race

/-! ## C227: Await and FastAwait -/

/-- The methods of `Await` and of `FastAwait` can be called at the same time without a data race. -/
def C227_claim : Prop :=
  (∀ ix x, FreeOn (AwaitR.code ix) (fun _ => True) x) ∧ ∀ words, (∀ k, words k ≠ []) → ∀ x, FreeOn (FastAwaitR.code words) (fun _ => True) x

/-- Await is free of races, for any mutexes of the ids. -/
theorem C227_await_partial (ix : Nat → Nat) (x : AwaitR.Loc) : FreeOn (AwaitR.code ix) (fun _ => True) x :=
  freeOn (fun _ => .atomic) (by simp) (fun op _ => by cases op <;> simp [AwaitR.code, AwaitR.get, Code.ok, Code.all, Code.opt]) (by simp)

open FastAwaitR in
/-- Two `Wait`s that return at the same time, for one id or for ids whose first bits are in one word, race on that word of the Bloom filter. -/
theorem C227_waits {words : Nat → List Nat} {k k' w : Nat} {ws ws' : List Nat} (h : words k = w :: ws) (h' : words k' = w :: ws') :
    ¬ FreeOn (FastAwaitR.code words) (fun op => ∃ c i, op = .wait k c i ∨ op = .wait k' c i) (.bf (.word 0 w)) := by
  intro hf
  obtain ⟨l0, r0, p0⟩ := wait_run h 0 0
  obtain ⟨l1, r1, p1⟩ := wait_run h' 1 0
  refine hf ((waitStart k 0 w).map (fun a => (0, a)) ++ (waitStart k' 0 w).map (fun a => (1, a))) (St.init fun _ => ()) ?_ (fun _ h => h.elim) ?_ ?_
  · simp [waitStart, exec, St.step, St.init, upd]
  · intro t
    match t with
    | 0 => exact ⟨[l0], by simpa using ⟨_, ⟨0, 0, .inl rfl⟩, r0⟩, by simpa [proj, waitStart] using p0⟩
    | 1 => exact ⟨[l1], by simpa using ⟨_, ⟨1, 0, .inr rfl⟩, r1⟩, by simpa [proj, waitStart] using p1⟩
    | t + 2 => exact ⟨[], by simp, by simp [proj, waitStart]⟩
  · exact race_of_last (i := 6) (j := 12) (by decide) rfl rfl (by decide) rfl rfl (.inl rfl) (by simp [waitStart])

open FastAwaitR in
/-- A `CloseAndPut` that finds no channel and looks into the filter races with a `Wait` that returns. -/
theorem C227_put {words : Nat → List Nat} {k k' w : Nat} {ws ws' : List Nat} (h : words k = w :: ws) (h' : words k' = w :: ws') :
    ¬ FreeOn (FastAwaitR.code words) (fun op => ∃ c i, op = .wait k c i ∨ op = .closeAndPut k' c i) (.bf (.word 0 w)) := by
  intro hf
  obtain ⟨l0, r0, p0⟩ := wait_run h 0 0
  obtain ⟨l1, r1, p1⟩ := put_run h' 1 0
  refine hf ((waitStart k 0 w).map (fun a => (0, a)) ++ (putStart k' 0 w).map (fun a => (1, a))) (St.init fun _ => ()) ?_ (fun _ h => h.elim) ?_ ?_
  · simp [waitStart, putStart, exec, St.step, St.init, upd]
  · intro t
    match t with
    | 0 => exact ⟨[l0], by simpa using ⟨_, ⟨0, 0, .inl rfl⟩, r0⟩, by simpa [proj, waitStart, putStart] using p0⟩
    | 1 => exact ⟨[l1], by simpa using ⟨_, ⟨1, 0, .inr rfl⟩, r1⟩, by simpa [proj, waitStart, putStart] using p1⟩
    | t + 2 => exact ⟨[], by simp, by simp [proj, waitStart, putStart]⟩
  · exact race_of_last (i := 6) (j := 11) (by decide) rfl rfl (by decide) rfl rfl (.inl rfl) (by simp [waitStart, putStart])

theorem C227_claim_false : ¬ C227_claim := by
  intro h
  refine C227_waits (words := fun _ => [0]) (k := 0) (k' := 1) rfl rfl fun tr s he hfr hf => h.2 (fun _ => [0]) (by simp) _ tr s he hfr fun t => ?_
  obtain ⟨calls, h1, h2⟩ := hf t
  exact ⟨calls, fun c hc => let ⟨op, _, h⟩ := h1 c hc; ⟨op, trivial, h⟩, h2⟩

/-- Outside the filter there is no race, and in it none on the count of items. -/
theorem C227_fast_partial (words : Nat → List Nat) (x : FastAwaitR.Loc) (h : ∀ y, x = .bf y → y = .num) : FreeOn (FastAwaitR.code words) (fun _ => True) x :=
  freeOn (fun y => match y with | .bf .num => .atomic | .bf _ => .free | _ => .atomic) (by intro y; cases y with | bf z => cases z <;> simp | _ => simp)
    (fun op _ => by
      cases op <;>
        simp [FastAwaitR.code, emb_ok, BloomR.code, BloomR.index, Code.ok, all_ok, Code.all, Code.opt])
    (by cases x with | bf z => simp [h z rfl] | _ => simp)

/-- A `Wait` and a `CloseAndPut` for id 3 with an Await of two mutexes: an execution the theorem speaks of. -/
def awaitTr : Trace Nat AwaitR.Loc Unit :=
  [(0, .lock 1), (1, .aload (.slot 3) ()), (0, .aload (.slot 3) ()), (0, .armw (.slot 3) () ()), (0, .unlock 1), (1, .lock 1), (1, .aload (.slot 3) ()),
    (1, .armw (.slot 3) () ()), (1, .chan (.ch 0)), (0, .chan (.ch 0)), (1, .chan (.ch 0)), (0, .armw (.slot 3) () ()), (1, .unlock 1)]

example : (exec (St.init fun _ => ()) awaitTr).isSome = true := by decide +kernel

example : Follows (Calls (AwaitR.code (· % 2)) fun _ => True) awaitTr :=
  follows_of [[(.wait 3 0, [true, true])], [(.closeAndPut 3 0, [true, false, true, true])]] (by decide) (by decide) (by decide)

/-! ## C228: what is handed over by `CloseAndPut` -/
open Hand

/-- A record written before `CloseAndPut` can be read by whoever gets it from `Wait`, `WaitWithCancel` or `SyncWait`: there is no data race on it, and the reader sees what was
written; with any number of goroutines, ids and mutexes. -/
theorem C228_await (ix : Nat → Nat) (r : Nat) : RaceFreeOn (AwaitCall ix) mem0 isRec (.record r) ∧ Delivered (AwaitCall ix) mem0 isRec (.record r) :=
  ⟨hand_free (fun _ => await_good) _, hand_seen (fun _ => await_good) _⟩

/-- Likewise with FastAwait. -/
theorem C228_fastAwait (r : Nat) : RaceFreeOn FastCall mem0 isRec (.record r) ∧ Delivered FastCall mem0 isRec (.record r) :=
  ⟨hand_free (fun _ => fast_good) _, hand_seen (fun _ => fast_good) _⟩

/-- A `Wait` that begins first, and gets record 9. -/
def handTr : Trace Nat Loc Val :=
  [(0, .lock 0), (1, .wr (.record 9) .nothing), (0, .aload (.slot 5) .nothing), (1, .aload (.slot 5) .nothing), (0, .armw (.slot 5) .nothing (.chan 2)), (0, .unlock 0),
    (1, .aload (.slot 5) (.chan 2)), (1, .lock 0), (1, .aload (.slot 5) (.chan 2)), (1, .armw (.slot 5) (.chan 2) .nothing),
    (1, .armw (.buf 2 0) .nothing (.recs [9])), (0, .armw (.buf 2 0) (.recs [9]) .nothing), (0, .armw (.slot 5) .nothing .nothing), (0, .rd (.record 9) .nothing)]

example : (exec (St.init mem0) handTr).isSome = true ∧ FreshAlloc isRec handTr ∧ Follows (AwaitCall fun _ => 0) handTr := by
  refine ⟨by decide +kernel, fresh_of (by decide), fun t => ?_⟩
  match t with
  | 0 => exact ⟨_, one (.wait 5 2 0 false [9] .nothing), by decide⟩
  | 1 => exact ⟨_, one (.put 5 2 0 9 1 (.chan 2) (.chan 2) (by simp)), by decide⟩
  | t + 2 => exact ⟨[], by simp, by simp [proj, handTr]⟩

/-- The same with FastAwait. -/
def fastTr : Trace Nat Loc Val :=
  [(1, .wr (.record 9) .nothing), (1, .aload (.slot 5) .nothing), (0, .armw (.slot 5) .nothing (.chan 2)), (1, .aload (.slot 5) (.chan 2)), (1, .armw (.slot 5) (.chan 2) .nothing),
    (1, .armw (.buf 2 0) .nothing (.recs [9])), (0, .armw (.buf 2 0) (.recs [9]) .nothing), (0, .armw (.slot 5) .nothing .nothing), (0, .rd (.record 9) .nothing)]

example : (exec (St.init mem0) fastTr).isSome = true ∧ FreshAlloc isRec fastTr ∧ Follows FastCall fastTr := by
  refine ⟨by decide +kernel, fresh_of (by decide), fun t => ?_⟩
  match t with
  | 0 => exact ⟨_, one (.wait 5 2 0 [9] .nothing .nothing), by decide⟩
  | 1 => exact ⟨_, one (.put 5 2 0 9 1 (.chan 2)), by decide⟩
  | t + 2 => exact ⟨[], by simp, by simp [proj, fastTr]⟩

/-! ## C229: what is handed over by the containers -/

/-- A record written before it is put into a Map or MapL can be read by whoever gets it out. -/
theorem C229_map (r : Nat) : RaceFreeOn MapCall mem0 isRec (.record r) ∧ Delivered MapCall mem0 isRec (.record r) :=
  ⟨hand_free (fun _ => map_good) _, hand_seen (fun _ => map_good) _⟩

/-- Likewise with LimitMap, LruCache, TreeMap, LimitHashMap. -/
theorem C229_box (r : Nat) : RaceFreeOn BoxCall mem0 isRec (.record r) ∧ Delivered BoxCall mem0 isRec (.record r) :=
  ⟨hand_free (fun _ => box_good) _, hand_seen (fun _ => box_good) _⟩

/-- What `Get` of LinkedHashMap, which takes no mutex, reads in an entry, is what `Put` wrote there before it stored the entry. -/
theorem C229_linked (n : Nat) : Delivered (fun l => ∃ op, True ∧ Linked.Runs op l) Linked.mem0 Linked.isCell (.kv n) := by
  intro tr s he hfr hf j u v hj
  obtain ⟨S, P⟩ := Linked.linked_setup (km := .free) (by simp) (by simp) (by simp) (by simp) he hfr hf
  exact read_seen P rfl hj

/-- Record 7 is replaced by record 8; a reader has 7, the one who put 8 looks at 7 too. -/
def mapTr : Trace Nat Loc Val :=
  [(0, .wr (.record 7) .nothing), (0, .armw (.slot 1) .nothing (.recs [7])), (1, .wr (.record 8) .nothing), (2, .aload (.slot 1) (.recs [7])),
    (1, .armw (.slot 1) (.recs [7]) (.recs [8])), (1, .rd (.record 7) .nothing), (2, .rd (.record 7) .nothing), (2, .aload (.slot 1) (.recs [8])), (2, .rd (.record 8) .nothing)]

example : (exec (St.init mem0) mapTr).isSome = true ∧ FreshAlloc isRec mapTr ∧ Follows MapCall mapTr := by
  refine ⟨by decide +kernel, fresh_of (by decide), fun t => ?_⟩
  match t with
  | 0 => exact ⟨_, one (.putNew 1 7), by decide⟩
  | 1 => exact ⟨_, one (.put 1 8 [7]), by decide⟩
  | 2 => exact ⟨_, two (.get [(1, [7])]) (.get [(1, [8])]), by decide⟩
  | t + 3 => exact ⟨[], by simp, by simp [proj, mapTr]⟩

/-- A TreeMap with records 7 and 8, walked by a third goroutine. -/
def boxTr : Trace Nat Loc Val :=
  [(0, .wr (.record 7) .nothing), (1, .wr (.record 8) .nothing), (0, .lock 0), (0, .rd (.state 0) .nothing), (0, .wr (.state 0) (.recs [7])), (0, .unlock 0),
    (1, .lock 0), (1, .rd (.state 0) (.recs [7])), (1, .wr (.state 0) (.recs [8, 7])), (1, .unlock 0), (2, .rlock 0), (0, .rlock 0), (2, .rd (.state 0) (.recs [8, 7])),
    (0, .rd (.state 0) (.recs [8, 7])), (2, .rd (.record 7) .nothing), (0, .runlock 0), (2, .rd (.record 8) .nothing), (0, .rd (.record 8) .nothing), (2, .runlock 0)]

example : (exec (St.init mem0) boxTr).isSome = true ∧ FreshAlloc isRec boxTr ∧ Follows BoxCall boxTr := by
  refine ⟨by decide +kernel, fresh_of (by decide), fun t => ?_⟩
  match t with
  | 0 => exact ⟨_, two (.put 0 7 .nothing [7] [] (by simp) (by simp)) (.get 0 (.recs [8, 7]) [] [8] (by simp) (by decide)), by decide⟩
  | 1 => exact ⟨_, one (.put 0 8 (.recs [7]) [8, 7] [] (by decide) (by simp)), by decide⟩
  | 2 => exact ⟨_, one (.get 0 (.recs [8, 7]) [7, 8] [] (by decide) (by simp)), by decide⟩
  | t + 3 => exact ⟨[], by simp, by simp [proj, boxTr]⟩

/-! ## C230: what is handed over by `Go` -/

/-- What was written before `Go(f)` can be read by `f`, with any number of workers and dispatchers, closed or not. -/
theorem C230_pool (r : Nat) : RaceFreeOn PoolCall mem0 isRec (.record r) ∧ Delivered PoolCall mem0 isRec (.record r) :=
  ⟨hand_free (fun _ => pool_good) _, hand_seen (fun _ => pool_good) _⟩

/-- Goroutine 0 calls `Go`, 1 is a dispatcher, 2 a worker. -/
def poolTr : Trace Nat Loc Val :=
  [(0, .wr (.record 7) .nothing), (1, .lock 0), (0, .armw (.buf 0 0) .nothing (.recs [7])), (0, .wr (.record 8) .nothing), (1, .armw (.buf 0 0) (.recs [7]) .nothing),
    (0, .armw (.buf 1 0) .nothing (.recs [8])), (1, .armw (.buf 3 0) .nothing (.recs [7])), (1, .unlock 0), (2, .armw (.buf 3 0) (.recs [7]) .nothing),
    (3, .armw (.buf 1 0) (.recs [8]) .nothing), (2, .rd (.record 7) .nothing), (3, .rd (.record 8) .nothing)]

example : (exec (St.init mem0) poolTr).isSome = true ∧ FreshAlloc isRec poolTr ∧ Follows PoolCall poolTr := by
  refine ⟨by decide +kernel, fresh_of (by decide), fun t => ?_⟩
  match t with
  | 0 => exact ⟨_, two (.go 7 0) (.goClosed 8 0), by decide⟩
  | 1 => exact ⟨_, one (.pass 0 1 0 [7]), by decide⟩
  | 2 => exact ⟨_, one (.run 3 0 (by decide) [7]), by decide⟩
  | 3 => exact ⟨_, one (.run 1 0 (by decide) [8]), by decide⟩
  | t + 4 => exact ⟨[], by simp, by simp [proj, poolTr]⟩

end Gofer.Props.RaceHand
