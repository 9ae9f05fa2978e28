import Verif.Model.FastFile
/-!
# Notions about sequences of calls on `fastio` handles
-/
namespace Gofer.FastFile

/-- The handle a call is made on. -/
def target : Call → Option Nat
  | .open => none
  | .new _ => none
  | .write h _ => some h
  | .writeSync h _ => some h
  | .writeAt h _ _ => some h
  | .readAt h _ _ => some h
  | .read h _ => some h
  | .close h => some h

/-- The flags of the handles that calls create: `true` for `O_APPEND`. -/
def created : List Call → List Bool
  | [] => []
  | .open :: cs => true :: created cs
  | .new a :: cs => a :: created cs
  | _ :: cs => created cs

/-- The bytes given to `Write` and `WriteSync` on the handles chosen by `p`. -/
def written (p : Nat → Bool) : List Call → Nat
  | [] => 0
  | .write h bs :: cs => (if p h then bs.length else 0) + written p cs
  | .writeSync h bs :: cs => (if p h then bs.length else 0) + written p cs
  | _ :: cs => written p cs

/-- A call that writes to the file, on another handle than `h`. -/
def foreignWrite (h : Nat) : Call → Bool
  | .write i bs => i != h && !bs.isEmpty
  | .writeSync i bs => i != h && !bs.isEmpty
  | _ => false

/-- `Close` is not called. -/
def notClose : Call → Bool
  | .close _ => false
  | _ => true

end Gofer.FastFile
