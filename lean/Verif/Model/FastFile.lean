/-!
# Model of `fastio` handles on one file (fastio/file.go, fastio/util.go)

Any number of handles are open on one file; calls follow one another (none is in progress when the next begins), so that
`WriteSync` and `Write` take their fast path (fastio/fw.go:43-53 and 79-88: `m.cc` is back to 0, `m.wc` is 0). Calls that
overlap are the subject of `Model/Fastio.lean`.

`os.File` (library and Linux) is modelled with its position and its append mode. Simplified: no call fails for want of space or
rights, file sizes are natural numbers, and a transfer is never cut short other than by the end of the file.
-/
namespace Gofer.FastFile

/-- Errors. -/
inductive Err where
  /-- `io.EOF` -/
  | eof
  /-- `os.ErrClosed` -/
  | closed
  /-- "negative offset" -/
  | negative
  /-- "os: invalid use of WriteAt on file opened with O_APPEND" -/
  | appendMode
deriving DecidableEq, Repr

/-- `fileHandle` (fastio/file.go:41-46) with its `*os.File`. The field `isClose` is written (fastio/file.go:69) and read nowhere;
it is left out. -/
structure Handle where
  /-- `os.File`: opened with `O_APPEND` -/
  append : Bool
  /-- `os.File`: not closed -/
  live : Bool
  /-- `os.File`: position -/
  pos : Nat
  /-- `fileHandle.offset` -/
  offset : Nat
deriving DecidableEq, Repr

/-- The file and the handles, in the order of their creation. -/
structure St where
  file : List UInt8
  handles : List Handle
deriving DecidableEq, Repr

/-- What a call returns: a number (count or offset), the bytes put in the caller's slice, an error. -/
structure Out where
  n : Nat
  data : List UInt8
  err : Option Err
deriving DecidableEq, Repr

/-- Calls. `len` is the length of the slice given to `Read` and `ReadAt`. -/
inductive Call where
  /-- `fastio.Open(path)` -/
  | «open»
  /-- `fastio.New(f)` for a file the caller opened, with or without `O_APPEND` -/
  | new (append : Bool)
  | write (h : Nat) (bs : List UInt8)
  | writeSync (h : Nat) (bs : List UInt8)
  | writeAt (h : Nat) (bs : List UInt8) (off : Int)
  | readAt (h : Nat) (len : Nat) (off : Int)
  | read (h : Nat) (len : Nat)
  | close (h : Nat)
deriving DecidableEq, Repr

/-- `pwrite(2)` of `d` at `off` (Linux): a gap after the end is filled with zeros. -/
def put (f : List UInt8) (off : Nat) (d : List UInt8) : List UInt8 :=
  let f' := f ++ List.replicate (off - f.length) 0
  f'.take off ++ d ++ f'.drop (off + d.length)

/-- `File.Write` (library, Linux `write(2)`): the file afterwards, the position, the count and the error. -/
def osWrite (f : List UInt8) (x : Handle) (d : List UInt8) : List UInt8 × Nat × Nat × Option Err :=
  if !x.live then (f, x.pos, 0, some .closed)
  else if d.isEmpty then (f, x.pos, 0, none)
  else if x.append then (f ++ d, f.length + d.length, d.length, none)
  else (put f x.pos d, x.pos + d.length, d.length, none)

/-- `File.WriteAt` (library). -/
def osWriteAt (f : List UInt8) (x : Handle) (d : List UInt8) (off : Int) : List UInt8 × Nat × Option Err :=
  if x.append then (f, 0, some .appendMode)
  else if off < 0 then (f, 0, some .negative)
  else if d.isEmpty then (f, 0, none)
  else if !x.live then (f, 0, some .closed)
  else (put f off.toNat d, d.length, none)

/-- `File.ReadAt` (library): reads until the slice is full or the file ends. -/
def osReadAt (f : List UInt8) (x : Handle) (len : Nat) (off : Int) : List UInt8 × Option Err :=
  if off < 0 then ([], some .negative)
  else if len = 0 then ([], none)
  else if !x.live then ([], some .closed)
  else
    let d := (f.drop off.toNat).take len
    (d, if d.length < len then some .eof else none)

/-- `File.Read` (library): the bytes, the position afterwards and the error. -/
def osRead (f : List UInt8) (x : Handle) (len : Nat) : List UInt8 × Nat × Option Err :=
  if !x.live then ([], x.pos, some .closed)
  else
    let d := (f.drop x.pos).take len
    (d, x.pos + d.length, if d.length = 0 ∧ 0 < len then some .eof else none)

/-- `New` (fastio/file.go:31-39) with `offset` (fastio/util.go:16-18): the position goes to the end. -/
def fresh (f : List UInt8) (append : Bool) : Handle := { append, live := true, pos := f.length, offset := f.length }

/-- One call; `none` if there is no such handle. -/
def step (s : St) : Call → Option (St × Out)
  -- fastio/file.go:23-29
  | .open => some ({ s with handles := s.handles ++ [fresh s.file true] }, ⟨0, [], none⟩)
  -- fastio/file.go:31-39
  | .new a => some ({ s with handles := s.handles ++ [fresh s.file a] }, ⟨0, [], none⟩)
  -- fastio/file.go:56-58, fastio/fw.go:79-88
  | .write h bs => do
    let x ← s.handles[h]?
    let (f, p, n, e) := osWrite s.file x bs
    let o := if 0 < n then x.offset + n else x.offset
    return (⟨f, s.handles.set h { x with pos := p, offset := o }⟩, ⟨n, [], e⟩)
  -- fastio/file.go:52-54, fastio/fw.go:43-53
  | .writeSync h bs => do
    let x ← s.handles[h]?
    let (f, p, n, e) := osWrite s.file x bs
    return (⟨f, s.handles.set h { x with pos := p, offset := x.offset + n }⟩, ⟨x.offset, [], e⟩)
  -- fastio/file.go:48-50
  | .writeAt h bs off => do
    let x ← s.handles[h]?
    let (f, n, e) := osWriteAt s.file x bs off
    return ({ s with file := f }, ⟨n, [], e⟩)
  -- fastio/file.go:60-62
  | .readAt h len off => do
    let x ← s.handles[h]?
    let (d, e) := osReadAt s.file x len off
    return (s, ⟨d.length, d, e⟩)
  -- fastio/file.go:64-66
  | .read h len => do
    let x ← s.handles[h]?
    let (d, p, e) := osRead s.file x len
    return ({ s with handles := s.handles.set h { x with pos := p } }, ⟨d.length, d, e⟩)
  -- fastio/file.go:68-71
  | .close h => do
    let x ← s.handles[h]?
    return ({ s with handles := s.handles.set h { x with live := false } },
      ⟨0, [], if x.live then none else some .closed⟩)

/-- A sequence of calls: the state after it and what each call returned. -/
def run (s : St) : List Call → Option (St × List Out)
  | [] => some (s, [])
  | c :: cs => do
    let (t, o) ← step s c
    let (u, os) ← run t cs
    return (u, o :: os)

/-- The file `f` with no handle. -/
def start (f : List UInt8) : St := ⟨f, []⟩

end Gofer.FastFile
