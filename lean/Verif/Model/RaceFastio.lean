import Verif.Model.Race
/-!
# The memory accesses of a fastio handle (fastio/fw.go, fastio/file.go)

Values matter for the counter `cc` only: it tells the fast way from the slow one. The values of the other locations are left out (0). The fields of a queued
`writeData` are left out. `cc` is an `int32`; here it does not overflow (fewer than 2^31 calls at a time).
-/
namespace Gofer.Race.FastioR
open Gofer.Race Gofer.Race.Code

/-- `wc`, `cc`, `ioend`, `ch` of the `mwriter` (fastio/fw.go:27-34), `done` of the queued data (fastio/fw.go:21-25), `offset` and `isClose` of the handle
(fastio/file.go:41-46). -/
inductive Loc | wc | cc | ioend | offset | ch | done | isClose deriving DecidableEq

/-- The same action with a value. -/
def lift : Act Unit Loc Unit → Act Unit Loc Int
  | .lock m => .lock m
  | .unlock m => .unlock m
  | .rlock m => .rlock m
  | .runlock m => .runlock m
  | .rd x _ => .rd x 0
  | .wr x _ => .wr x 0
  | .aload x _ => .aload x 0
  | .armw x _ _ => .armw x 0 0
  | .chan x => .chan x
  | .go t => .go t

/-- `ioWrite` (fastio/fw.go:103-128). It may end early, with an error. -/
def ioWrite : Code Unit Loc :=
  all [.rd .wc, opt (all [.wr .ioend, .star (all [.chan .ch, .rd .offset, opt (all [.armw .offset, .armw .wc])]), opt (.wr .ioend), .star (.chan .done)])]

/-- What `WriteSync` does in its fast way, with the mutex locked (fastio/fw.go:45-52). -/
def syncBody : Code Unit Loc := all [.rd .wc, opt ioWrite, .rd .offset, .armw .offset]

/-- What `Write` does in its fast way, with the mutex locked for reading (fastio/fw.go:80-86). -/
def writeBody : Code Unit Loc := all [.rd .wc, opt ioWrite, opt (.armw .offset)]

/-- The slow way up to the `TryLock` that succeeds, or to the last look at `ioend` (fastio/fw.go:54-66, 88-97). -/
def queue : Code Unit Loc := all [.armw .wc, .chan .ch, .star (.rd .ioend)]

/-- The actions of a call. -/
inductive Call : List (Act Unit Loc Int) → Prop
  /-- `WriteSync`, fast way (fastio/fw.go:41-52). The unlocking and the counting down are deferred, so a panic (`p` shorter than `l`) does not skip them. -/
  | syncFast {v u : Int} {l p : List (Act Unit Loc Unit)} (hv : v + 1 ≤ 1) (h : syncBody.Runs l) (hp : p <+: l) :
      Call (.armw .cc v (v + 1) :: .lock () :: p.map lift ++ [.unlock (), .armw .cc u (u - 1)])
  /-- `Write`, fast way (fastio/fw.go:76-87). -/
  | writeFast {v u : Int} {l p : List (Act Unit Loc Unit)} (hv : v + 1 ≤ 1) (h : writeBody.Runs l) (hp : p <+: l) :
      Call (.armw .cc v (v + 1) :: .rlock () :: p.map lift ++ [.runlock (), .armw .cc u (u - 1)])
  /-- The slow way of either: `TryLock` succeeds and so does `ioWrite` (fastio/fw.go:54-62, 88-95). -/
  | slow {v u : Int} {l l' : List (Act Unit Loc Unit)} (hv : 1 < v + 1) (h : queue.Runs l) (h' : ioWrite.Runs l') :
      Call (.armw .cc v (v + 1) :: l.map lift ++ .lock () :: l'.map lift ++ [.unlock (), .armw .cc u (u - 1)])
  /-- The slow way of either: `ioWrite` fails, the mutex is not unlocked (fastio/fw.go:59-61, 92-94). -/
  | slowErr {v u : Int} {l l' p : List (Act Unit Loc Unit)} (hv : 1 < v + 1) (h : queue.Runs l) (h' : ioWrite.Runs l') (hp : p <+: l') :
      Call (.armw .cc v (v + 1) :: l.map lift ++ .lock () :: p.map lift ++ [.armw .cc u (u - 1)])
  /-- `WriteSync`, slow way, another goroutine has written the data (fastio/fw.go:64-67). -/
  | syncDone {v u : Int} {l : List (Act Unit Loc Unit)} (hv : 1 < v + 1) (h : queue.Runs l) :
      Call (.armw .cc v (v + 1) :: l.map lift ++ [.chan .done, .armw .cc u (u - 1)])
  /-- `Write`, slow way, another goroutine is writing (fastio/fw.go:96-100). -/
  | writeLeft {v u : Int} {l : List (Act Unit Loc Unit)} (hv : 1 < v + 1) (h : queue.Runs l) :
      Call (.armw .cc v (v + 1) :: l.map lift ++ [.armw .cc u (u - 1)])
  /-- `Close` (fastio/file.go:69-72). -/
  | close : Call [.wr .isClose 0]

end Gofer.Race.FastioR
