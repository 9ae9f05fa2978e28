/-!
# Model of `mmap/mmap.go` and `mmap/sync_*.go`

The mapped file is a byte list `mem`, what has reached the disk is `disk`. A call is a locked section
(`Append`/`WriteAt` up to `Unlock`), which decides about an error and reserves a region, then the copying of its
bytes one at a time, outside the lock, then for the Sync calls an `msync`. Calls interleave in any way; every call
that has reserved a region is an entry of `log`, so any number of goroutines is covered. The kernel may write any
byte to the disk at any time. Int arithmetic is on 64 bits. Not modelled: mapping and unmapping, `Flush`, I/O errors
of `msync`.
-/
namespace Gofer.Mmap

/-- A call that has reserved a region: where, what it writes, whether `Append` or `WriteAt`, whether a Sync call, how
many bytes are copied, and whether it has returned. -/
structure Entry where
  start : Nat
  data : List UInt8
  append : Bool
  sync : Bool
  pos : Nat
  returned : Bool
deriving DecidableEq

/-- A mapped file with its calls (mmap/mmap.go:38-44). -/
structure St where
  offset : BitVec 64
  mem : List UInt8
  disk : List UInt8
  log : List Entry
deriving DecidableEq

/-- `t.maxsize`: the size of the mapped file (mmap/mmap.go:34). -/
def St.maxsize (s : St) : BitVec 64 := BitVec.ofNat 64 s.mem.length

/-- `NewMMAP` (mmap/mmap.go:18-36) on a file holding `file`; `none` is an error. -/
def newMMAP (file : List UInt8) (startOffset : BitVec 64) : Option St :=
  if file.length = 0 then none
  else if (BitVec.ofNat 64 file.length).sle startOffset then none
  else some ⟨startOffset, file, file, []⟩

/-- What the beginning of a call leads to. -/
inductive Start where
  | error
  | panic
  | reserved (n : Nat)
deriving DecidableEq

/-- Bounds check of `t._mmap[a:b]` (language): `0 ≤ a ≤ b ≤ cap`. -/
def sliceOk (size a b : BitVec 64) : Bool := BitVec.sle 0 a && a.sle b && b.sle size

/-- `Append` (mmap/mmap.go:46-58) up to the bounds check of the copy: outcome and the new offset. -/
def appendStart (s : St) (bs : List UInt8) : Start × BitVec 64 :=
  let l := BitVec.ofNat 64 bs.length
  if s.maxsize.slt (s.offset + l) then (.error, s.offset)
  else
    let n := s.offset
    if sliceOk s.maxsize n (n + l) then (.reserved n.toNat, s.offset + l) else (.panic, s.offset + l)

/-- `WriteAt` (mmap/mmap.go:67-80) up to the bounds check of the copy: outcome and the new offset. -/
def writeAtStart (s : St) (bs : List UInt8) (offset : BitVec 64) : Start × BitVec 64 :=
  let l := BitVec.ofNat 64 bs.length
  if s.maxsize.slt (offset + l) then (.error, s.offset)
  else
    let off := if s.offset.slt (offset + l) then offset + l else s.offset
    if sliceOk s.maxsize offset (offset + l) then (.reserved offset.toNat, off) else (.panic, off)

/-- Overwrite the bytes `[a, a+d.length)`. -/
def over (m : List UInt8) (a : Nat) (d : List UInt8) : List UInt8 := m.take a ++ d ++ m.drop (a + d.length)

/-- The range `mmapSyncToDisk` passes to `msync`, as start and length in the mapping; `none` is the index panic
(mmap/sync_unix.go:21-34). -/
def syncUnix (pageSize size n length : Nat) : Option (Nat × Nat) :=
  let p := n / pageSize
  let alignedStart := p * pageSize
  if alignedStart < size then some (alignedStart, n - alignedStart + length) else none

/-- The same on Windows (mmap/sync_windows.go:20-28): `&bs[0]` panics on an empty slice. -/
def syncWin (size n length : Nat) : Option (Nat × Nat) :=
  if n + length ≤ size ∧ 0 < length then some (n, length) else none

/-- `msync` (system call): the range, as far as it is mapped, is on the disk. -/
def flush (s : St) (r : Nat × Nat) : St := { s with disk := over s.disk r.1 ((s.mem.drop r.1).take r.2) }

/-- What can happen. -/
inductive Act where
  | append (sync : Bool) (bs : List UInt8)
  | writeAt (sync : Bool) (bs : List UInt8) (offset : BitVec 64)
  | copy (i : Nat)
  | finish (i : Nat)
  | msync (i : Nat)
  | writeback (a : Nat)

/-- The largest length of a byte slice that is assumed possible (the Go runtime allows less). -/
def maxLen : Nat := 2 ^ 62

/-- Outcome of a locked section: a reservation adds an entry; after an error or a panic the call is over. -/
def begin (s : St) (isAppend sync : Bool) (bs : List UInt8) (r : Start × BitVec 64) : St :=
  match r with
  | (.reserved n, off) => { s with offset := off, log := s.log ++ [⟨n, bs, isAppend, sync, 0, false⟩] }
  | (_, off) => { s with offset := off }

/-- One step on a system with pages of `page` bytes; `none` if it is not possible. -/
def act (page : Nat) (s : St) : Act → Option St
  | .append sync bs => if bs.length < maxLen then some (begin s true sync bs (appendStart s bs)) else none
  | .writeAt sync bs o => if bs.length < maxLen then some (begin s false sync bs (writeAtStart s bs o)) else none
  | .copy i =>
    match s.log[i]? with
    | none => none
    | some e =>
      match e.data[e.pos]? with
      | none => none
      | some b => some { s with mem := s.mem.set (e.start + e.pos) b, log := s.log.set i { e with pos := e.pos + 1 } }
  | .finish i =>
    match s.log[i]? with
    | none => none
    | some e =>
      if e.pos = e.data.length ∧ e.sync = false then some { s with log := s.log.set i { e with returned := true } } else none
  | .msync i =>
    match s.log[i]? with
    | none => none
    | some e =>
      if e.pos = e.data.length ∧ e.sync = true then
        match syncUnix page s.mem.length e.start e.data.length with
        | some r => some { flush s r with log := s.log.set i { e with returned := true } }
        | none => none
      else none
  | .writeback a => if a < s.mem.length then some { s with disk := s.disk.set a (s.mem.getD a 0) } else none

/-- An execution. -/
def exec (page : Nat) (s : St) : List Act → Option St
  | [] => some s
  | a :: as =>
    match act page s a with
    | some s' => exec page s' as
    | none => none

end Gofer.Mmap
