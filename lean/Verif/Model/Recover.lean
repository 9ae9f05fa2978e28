/-!
# `Recover` (util/encode.go) and functions that defer it

A function as the statements it executes, in order. Go (language): deferred calls run when the function ends, the last one first, also when it panics; a panic in
a deferred call takes the place of the one under way; `recover()` stops the panic of the function that deferred the caller of `recover()`, and is nil everywhere else. So a
`defer` is run after everything that follows it, the later deferred calls included: `exec` of `defer d; rest` is `d` after `exec rest`.

The same function is in lock/lock.go:167-173, fastio/util.go:20-26, cache/bloom.go:125-131, websocket/wshandle.go:136-142 (there with `panic: ` before the text). Not modelled: `runtime.Goexit`, `os.Exit`,
and errors that cannot be recovered.
-/
namespace Gofer.Recover

/-- What a function does from some point on. Panic values and errors are numbers; `err` is its result of type `error`, `none` is nil. -/
inductive Code where
  /-- the end, or `return` -/
  | done
  /-- `err = e` -/
  | setErr (e : Option Nat) (rest : Code)
  /-- `panic(v)`, or an operation that panics -/
  | panic (v : Nat) (rest : Code)
  /-- `if err != nil { body; return }` -/
  | ifErr (body rest : Code)
  /-- a call of another function, whose result is not used -/
  | call (f rest : Code)
  /-- `util.Recover(&err)`, not deferred -/
  | recoverHere (rest : Code)
  /-- `defer util.Recover(&err)`; `defer util.Recover(nil)` if not `toErr` -/
  | deferRecover (toErr : Bool) (rest : Code)
  /-- `defer func() { util.Recover(&err) }()` -/
  | deferWrapped (rest : Code)
  /-- `defer func() { body }()`; the body may set `err` of the function around it -/
  | deferRun (body rest : Code)
deriving DecidableEq

/-- `Recover` as a deferred call (util/encode.go:147-153), on the value of `err` and the panic under way. `fmt.Errorf("%v", e)` is the number of the panic value. -/
def recoverDeferred (toErr : Bool) : Option Nat × Option Nat → Option Nat × Option Nat
  | (err, some v) => (if toErr then some v else err, none)
  | (err, none) => (err, none)

/-- The run of a function with `err` at some value: `err` at its end, and the panic that comes out. -/
def exec : Code → Option Nat → Option Nat × Option Nat
  | .done, err => (err, none)
  | .setErr e r, _ => exec r e
  | .panic v _, err => (err, some v)
  | .ifErr b r, err => if err = none then exec r err else exec b err
  | .call f r, err =>
    match (exec f none).2 with
    | some v => (err, some v)
    | none => exec r err
  -- `recover()` is nil: no deferred call
  | .recoverHere r, err => exec r err
  | .deferRecover b r, err => recoverDeferred b (exec r err)
  -- `recover()` is nil: it is called by `Recover`, which is not the deferred function
  | .deferWrapped r, err => exec r err
  | .deferRun b r, err =>
    match exec b (exec r err).1 with
    | (err', some v) => (err', some v)
    | (err', none) => (err', (exec r err).2)

/-- One piece of code after another. -/
def Code.andThen : Code → Code → Code
  | .done, c => c
  | .setErr e r, c => .setErr e (r.andThen c)
  | .panic v r, c => .panic v (r.andThen c)
  | .ifErr b r, c => .ifErr b (r.andThen c)
  | .call f r, c => .call f (r.andThen c)
  | .recoverHere r, c => .recoverHere (r.andThen c)
  | .deferRecover b r, c => .deferRecover b (r.andThen c)
  | .deferWrapped r, c => .deferWrapped (r.andThen c)
  | .deferRun b r, c => .deferRun b (r.andThen c)

end Gofer.Recover
