import Verif.Model.GoPool

/-!
# The stack of the dispatcher of `pool/gopool/gopool.go`

`_funcn` ends with a call of itself (pool/gopool/gopool.go:151-153). Go keeps the frame of the caller until the callee returns, also for
a call in last place. The machine of `Model/GoPool.lean` goes back to `.range` there and does not count the frames; here they are
counted. The size of a frame and the size of the stack at which the runtime kills the process are not modelled: statements are about
the number of frames.
-/
namespace Gofer.GoPool

/-- The number of frames of `_funcn` on the stack of the dispatcher after the machine went from `s` to `t`: `funcn` makes the first call
(pool/gopool/gopool.go:124-128), `if g.tnum > 0 { g._funcn() }` one more (151-153), and all are gone when the dispatcher has ended. -/
def frames (s t : St) (d : Nat) : Nat :=
  match s.disp, t.disp with
  | _, .idle => 0
  | .idle, _ => 1
  | .last, .range => d + 1
  | _, _ => d

/-- A run, with the number of frames. -/
def execD (cfg : Cfg) (s : St) (d : Nat) : List Act → Option (St × Nat)
  | [] => some (s, d)
  | a :: as => (act cfg s a).bind fun t => execD cfg t (frames s t d) as

end Gofer.GoPool
