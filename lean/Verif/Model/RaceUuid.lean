import Verif.Spec.Race
/-!
# The memory accesses of `NewUUID` (uuid/uuid.go:32-40, 130-156)

`pid`, `rid` and `pidaddr` are set before `base` is (uuid/uuid.go:119-128) and never changed; the UUID itself is local. What remains is the sequence number, which is counted
atomically, and `scale`, which is not.
-/
namespace Gofer.Race.UuidR
open Gofer.Race

/-- `base.seq` and `base.scale` (uuid/uuid.go:109-115). -/
inductive Loc | seq | scale deriving DecidableEq

/-- `math.MaxUint64`. -/
def maxU64 : Nat := 18446744073709551615

/-- The actions of a call: `getSeq` (uuid/uuid.go:150-156), then `slice33` (uuid/uuid.go:130-138). -/
inductive Call : List (Act Unit Loc Nat) → Prop
  /-- The ordinary case. -/
  | new {v s : Nat} (h : v + 1 < maxU64) : Call [.armw .seq v (v + 1), .rd .scale s]
  /-- The sequence number reaches `math.MaxUint64`; `b.scale++` reads and writes. -/
  | last {v s s' : Nat} (h : v + 1 = maxU64) : Call [.armw .seq v (v + 1), .rd .scale s, .wr .scale ((s + 1) % 256), .rd .scale s']
  /-- The sequence number wraps around. -/
  | wrap {s : Nat} : Call [.armw .seq maxU64 0, .rd .scale s]

/-- The action takes a sequence number. -/
def takes : Act Unit Loc Nat → Bool
  | .armw _ _ _ => true
  | _ => false

/-- The number of sequence numbers taken. -/
def taken (tr : Trace Unit Loc Nat) : Nat := tr.countP fun e => takes e.2

end Gofer.Race.UuidR
