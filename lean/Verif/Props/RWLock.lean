import Verif.Proof.RWLockFree
/-! # Properties C171-C172: calls that return, and callbacks that do not let them -/
namespace Gofer.Props.RWLock
open Gofer.Race Gofer.RWLock

/-! ## C171: no deadlock in the containers with a mutex

`gs` has for each goroutine the calls it makes, and for each call its actions. -/

/-- LimitMap. -/
theorem C171_limitMap {gs : List (List (List (Act Unit LimitMapR.Loc Unit)))} (h : ∀ g ∈ gs, ∀ c ∈ g, Calls LimitMapR.code (fun _ => True) c) :
    Returns (gs.map List.flatten) := returns_code (fun op => by cases op <;> rfl) h

/-- LruCache. -/
theorem C171_lruCache {gs : List (List (List (Act Unit LruCacheR.Loc Unit)))} (h : ∀ g ∈ gs, ∀ c ∈ g, Calls LruCacheR.code (fun _ => True) c) :
    Returns (gs.map List.flatten) := returns_code (fun op => by cases op <;> rfl) h

/-- TreeMap, with callbacks that do not use the map. -/
theorem C171_treeMap {gs : List (List (List (Act Unit TreeMapR.Loc Unit)))} (h : ∀ g ∈ gs, ∀ c ∈ g, Calls TreeMapR.code (fun _ => True) c) :
    Returns (gs.map List.flatten) := returns_code (fun op => by cases op <;> rfl) h

/-- Consistenthash. -/
theorem C171_consistenthash {gs : List (List (List (Act Unit ConsistenthashR.Loc Unit)))}
    (h : ∀ g ∈ gs, ∀ c ∈ g, Calls ConsistenthashR.code (fun _ => True) c) : Returns (gs.map List.flatten) :=
  returns_code (fun op => by cases op <;> simp [ConsistenthashR.code, noNest, noNest_all, Code.opt]) h

/-- LimitHashMap: the segments have their own mutexes, and no call holds two. -/
theorem C171_limitHashMap {gs : List (List (List (Act Nat LimitHashMapR.Loc Unit)))}
    (h : ∀ g ∈ gs, ∀ c ∈ g, Calls LimitHashMapR.code (fun _ => True) c) : Returns (gs.map List.flatten) :=
  returns_code (fun op => by cases op <;> simp [LimitHashMapR.code, noNest, noNest_all, Code.opt]) h

/-- The credential store. -/
theorem C171_storeAdmin {gs : List (List (List (Act Unit StoreAdminR.Loc Unit)))} (h : ∀ g ∈ gs, ∀ c ∈ g, Calls StoreAdminR.code (fun _ => True) c) :
    Returns (gs.map List.flatten) := returns_code (fun op => by cases op <;> rfl) h

/-- LinkedHashMap and its iterators. -/
theorem C171_linkedHashMap {gs : List (List (List Linked.A))} (h : ∀ g ∈ gs, ∀ c ∈ g, ∃ op, Linked.Runs op c) : Returns (gs.map List.flatten) :=
  returns_calls (P := fun c => ∃ op, Linked.Runs op c) (fun l ⟨op, hr⟩ q => by
    cases hr <;> simp [flat, Linked.insert, Linked.evict, Linked.relink, Linked.inc, Linked.entry]) h

/-- A Get and a Put of a LimitMap by two goroutines: the theorem applies, and a schedule in which the Put waits for the Get. -/
example : ∀ g ∈ [[[Act.rlock (), .rd LimitMapR.Loc.cache (), .runlock ()]], [[.lock (), .rd .cache (), .unlock ()]]],
    ∀ c ∈ g, Calls LimitMapR.code (fun _ => True) c := by
  intro g hg c hc
  simp at hg
  rcases hg with rfl | rfl <;> simp at hc <;> subst hc
  · have h := Code.Runs.lockedR (m := ()) (p := [.rd LimitMapR.Loc.cache ()])
      (Code.Runs.seq (.rd LimitMapR.Loc.cache) (.seq (.altR (a := Code.all [.rd .order, .rd .entries]) .skip) .skip)) (by simp)
    exact ⟨.get, trivial, h⟩
  · have h := Code.Runs.lockedW (m := ()) (p := [.rd LimitMapR.Loc.cache ()])
      (Code.Runs.seq (.rd LimitMapR.Loc.cache) (.seq (.altR (a := Code.all [.rd .order, .wr .order, .wr .cache]) .skip) .skip)) (by simp)
    exact ⟨.del, trivial, h⟩

example : (((Sys.init [[Act.rlock (), .rd LimitMapR.Loc.cache (), .runlock ()], [.lock (), .rd .cache (), .unlock ()]] :
    Sys Unit LimitMapR.Loc Unit).run [0, 1, 0, 0, 1, 1, 1]).map fun s => s.thr) = some [[], []] := by decide +kernel

example : (((Sys.init [[Act.rlock (), .rd LimitMapR.Loc.cache (), .runlock ()], [.lock (), .rd .cache (), .unlock ()]] :
    Sys Unit LimitMapR.Loc Unit).run [0, 1, 1]).map fun s => s.thr) = none := by decide +kernel

/-! ## C172: callbacks that use the TreeMap -/

/-- Whatever the callbacks do with the map, all calls return. -/
def C172_claim : Prop := ∀ scripts : List (List A), (∀ l ∈ scripts, Uses true .calls l) → Returns scripts

/-- An Ascend over one item whose callback calls Get, and a Put by another goroutine, and a Get by a third. -/
def nested : List (List A) :=
  [[.rlock (), .rd .tree (), .rlock (), .rd .tree (), .runlock (), .runlock ()],
    [.lock (), .rd .tree (), .wr .tree (), .unlock ()],
    [.rlock (), .rd .tree (), .runlock ()]]

theorem nested_uses : ∀ l ∈ nested, Uses true .calls l := by
  intro l hl
  simp [nested] at hl
  rcases hl with rfl | rfl | rfl
  · exact .iter (b := [.rd .tree (), .rlock (), .rd .tree (), .runlock ()])
      (.item (c := [.rlock (), .rd .tree (), .runlock ()]) (.get .nil) .last) .nil
  · exact .put rfl .nil
  · exact .get .nil

/-- After two steps of the first goroutine and one of the second, nobody can go on: the Put waits for the Ascend, the Ascend's Get waits for the Put,
and every other call waits, too. -/
theorem C172_read_in_callback : ∃ sched s, (Sys.init nested).run sched = some s ∧ s.Stuck ∧ ∀ i, i < 3 → ¬ s.Done i := by
  refine ⟨[0, 0, 1], _, rfl, ?_, ?_⟩
  · intro i
    rcases i with _ | _ | _ | i
    · rfl
    · rfl
    · rfl
    · rfl
  · intro i hi
    rcases i with _ | _ | _ | i
    · rintro (h | h) <;> cases h
    · rintro (h | h) <;> cases h
    · rintro (h | h) <;> cases h
    · omega

theorem C172_claim_false : ¬ C172_claim := by
  intro h
  obtain ⟨sched, s, hr, hs, hd⟩ := C172_read_in_callback
  exact hd 0 (by omega) ((h nested nested_uses sched s hr).2 hs 0)

/-- A callback that calls Put or Del never returns, nor does the iteration; whatever other goroutines do, whichever calls (`pre`) the goroutine made before, items (`b`) it
visited and calls (`c`) the callback made on this item. -/
theorem C172_write_in_callback {scripts : List (List A)} {i : Nat} {pre b c post : List A} {w : Bool} (hp : Uses w .calls pre) (hb : Uses w .items b) (hc : Uses w .calls c)
    (hi : scripts[i]? = some (pre ++ .rlock () :: b ++ .rd .tree () :: c ++ .lock () :: post))
    {sched : List Nat} {s : Sys Unit TreeMapR.Loc Unit} (hr : (Sys.init scripts).run sched = some s) : ¬ s.Done i := by
  refine doomed hi ?_ hr
  simp [depth_app, depth, depth_uses hp, depth_uses hb, depth_uses hc]

example : ([[.rlock (), .rd .tree (), .lock (), .rd .tree (), .wr .tree (), .unlock (), .runlock ()]] : List (List A))[0]? =
    some ([] ++ .rlock () :: [] ++ .rd .tree () :: [] ++ .lock () :: [.rd .tree (), .wr .tree (), .unlock (), .runlock ()]) := rfl

/-- While nobody puts or deletes, callbacks may call Get, Ascend and Descend, to any depth. -/
theorem C172_readers_partial {scripts : List (List A)} (h : ∀ l ∈ scripts, Uses false .calls l) : Returns scripts := returns_readers h

/-- Two goroutines iterate, calling Get in the callback. -/
example : ∀ l ∈ [[Act.rlock (), .rd TreeMapR.Loc.tree (), .rlock (), .rd .tree (), .runlock (), .runlock ()],
    [.rlock (), .rd .tree (), .rlock (), .rd .tree (), .runlock (), .runlock ()]], Uses false .calls l := by
  have h : Uses false .calls [.rlock (), .rd .tree (), .rlock (), .rd .tree (), .runlock (), .runlock ()] :=
    .iter (b := [.rd .tree (), .rlock (), .rd .tree (), .runlock ()])
      (.item (c := [.rlock (), .rd .tree (), .runlock ()]) (.get .nil) .last) .nil
  intro l hl
  simp at hl
  rcases hl with rfl | rfl <;> exact h

end Gofer.Props.RWLock
