import Verif.Spec.Race
/-!
# The memory accesses of a mapped file (mmap/mmap.go:40-86)

Offsets do not overflow (files are shorter than 2^62 bytes). The bytes written are left out (0); `_mmap` and `maxsize` are never changed. `mmapSyncToDisk` hands
the pages to the kernel and accesses nothing.
-/
namespace Gofer.Race.MmapR
open Gofer.Race

/-- `offset` of the `Mmap` (mmap/mmap.go:40-46), and the bytes of the file. -/
inductive Loc | off | byte (k : Int) deriving DecidableEq

/-- `copy(t._mmap[o:o+n], bs)`. -/
def copied (o : Int) (n : Nat) : List (Act Unit Loc Int) := (List.range n).map fun i : Nat => .wr (.byte (o + i)) 0

/-- The actions of calls on a file of `max` bytes. `at o n`: there are calls of `WriteAt` that write `n` bytes at `o`. -/
inductive Call (max : Int) (at' : Int → Nat → Prop) : List (Act Unit Loc Int) → Prop
  /-- `Append`, `AppendSync` of `n` bytes (mmap/mmap.go:48-68): `offset` is read for the test, for the result and for the sum. -/
  | append {v1 v2 v3 : Int} {n : Nat} (h : v1 + n ≤ max) :
      Call max at' ([.lock (), .rd .off v1, .rd .off v2, .rd .off v3, .wr .off (v3 + n), .unlock ()] ++ copied v2 n)
  /-- `Append` of too much (mmap/mmap.go:50-54). -/
  | full {v : Int} : Call max at' [.lock (), .rd .off v, .unlock ()]
  /-- `WriteAt`, `WriteAtSync` beyond what was written (mmap/mmap.go:70-90). -/
  | writeAt {v o : Int} {n : Nat} (h : at' o n) (h1 : o + n ≤ max) (h2 : v < o + n) :
      Call max at' ([.lock (), .rd .off v, .wr .off (o + n), .unlock ()] ++ copied o n)
  /-- `WriteAt`, `WriteAtSync` inside (mmap/mmap.go:70-90). -/
  | writeIn {v o : Int} {n : Nat} (h : at' o n) (h1 : o + n ≤ max) (h2 : o + n ≤ v) :
      Call max at' ([.lock (), .rd .off v, .unlock ()] ++ copied o n)
  /-- `WriteAt` beyond the end of the file (mmap/mmap.go:71-76). -/
  | out : Call max at' [.lock (), .unlock ()]

end Gofer.Race.MmapR
