import Verif.Model.Race
/-!
# The memory accesses of `Await` and `FastAwait` (lock/await.go, lock/fastawait.go)
-/
namespace Gofer.Race

/-- The code with other names for the locations. -/
def Code.emb {M X Y : Type} (f : X → Y) : Code M X → Code M Y
  | .skip => .skip
  | .rd x => .rd (f x)
  | .wr x => .wr (f x)
  | .aload x => .aload (f x)
  | .armw x => .armw (f x)
  | .chan x => .chan (f x)
  | .seq a b => .seq (a.emb f) (b.emb f)
  | .alt a b => .alt (a.emb f) (b.emb f)
  | .star a => .star (a.emb f)
  | .locked m w c => .locked m w (c.emb f)

open Code

namespace AwaitR

/-- The entries of the map `m` (lock/await.go:19-22), and the channels. -/
inductive Loc | slot (k : Nat) | ch (c : Nat) deriving DecidableEq
inductive Op | get (k : Nat) | has (k : Nat) | close (k c : Nat) | closeAndPut (k c : Nat) | wait (k c : Nat) deriving DecidableEq

/-- `Get`, lock/await.go:30-39. -/
def get (ix : Nat → Nat) (k : Nat) : Code Nat Loc := .locked (ix k) true (all [.aload (.slot k), opt (.armw (.slot k))])

/-- `ix` is the mutex of an id. -/
def code (ix : Nat → Nat) : Op → Code Nat Loc
  | .get k => get ix k
  -- Has, lock/await.go:42-44
  | .has k => .aload (.slot k)
  -- Close, lock/await.go:47-65
  | .close k c => all [.star (.aload (.slot k)), opt (.locked (ix k) true (all [.aload (.slot k), opt (all [.armw (.slot k), .chan (.ch c)])]))]
  -- CloseAndPut, lock/await.go:68-86
  | .closeAndPut k c =>
    all [.star (.aload (.slot k)), opt (.locked (ix k) true (all [.aload (.slot k), opt (all [.armw (.slot k), .chan (.ch c), .chan (.ch c)])]))]
  -- WaitWithCancel, Wait, SyncWait, lock/await.go:89-169: receive, or close
  | .wait k c => all [get ix k, opt (.chan (.ch c)), .armw (.slot k)]

end AwaitR

namespace FastAwaitR

/-- The entries of the map `db`, the channels, and the Bloom filter `bf` (lock/fastawait.go:19-22). -/
inductive Loc | slot (k : Nat) | ch (c : Nat) | bf (x : BloomR.Loc) deriving DecidableEq
/-- `i` is the segment of the filter in use. -/
inductive Op | wait (k c : Nat) (i : Fin 3) | closeAndPut (k c : Nat) (i : Fin 3) | close (k c : Nat) (i : Fin 3) deriving DecidableEq

/-- `words k` are the words of the bits of the id `k`. -/
def code (words : Nat → List Nat) : Op → Code Unit Loc
  -- Wait, WaitWithCancel, lock/fastawait.go:41-93, with del, 32-35
  | .wait k c i => all [.armw (.slot k), opt (.chan (.ch c)), (BloomR.code (.add i (words k))).emb .bf, .armw (.slot k)]
  -- CloseAndPut, lock/fastawait.go:95-109, with isDel, 37-39
  | .closeAndPut k c i =>
    all [.star (all [.aload (.slot k), (BloomR.code (.contains i (words k))).emb .bf]),
      .alt (all [.aload (.slot k), .armw (.slot k), .chan (.ch c), .chan (.ch c)]) (all [.aload (.slot k), (BloomR.code (.contains i (words k))).emb .bf])]
  -- Close, lock/fastawait.go:111-124
  | .close k c i =>
    all [.star (all [.aload (.slot k), (BloomR.code (.contains i (words k))).emb .bf]),
      .alt (all [.aload (.slot k), .armw (.slot k), .chan (.ch c)]) (all [.aload (.slot k), (BloomR.code (.contains i (words k))).emb .bf])]

end FastAwaitR

end Gofer.Race
