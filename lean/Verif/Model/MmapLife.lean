import Verif.Model.Mmap
/-!
# Model of the life of a mapping: `NewMMAP`, `Flush`, `Unmap`, `UnmapAndCloseFile`, `Close` (mmap/mmap.go)

The calls `Append`, `AppendSync`, `WriteAt` and `WriteAtSync` are those of `Model/Mmap.lean`. Here the slice expression
`t._mmap[n:...]` (mmap/mmap.go:56, 78) is a step of its own, as it reads the field `t._mmap`, which `Unmap` sets to nil without the
lock. Library `mmap-go` v1.2.0: `Unmap` is `munmap(2)` and `*m = nil`, and fails on a nil slice; `Flush` is `msync(2)` of the whole
mapping. Copying into memory that is no longer mapped ends the process (SIGSEGV; not a panic that can be recovered).

Simplified: the three words of the field `t._mmap` are read and written at once; `msync(2)` on a mapping just removed is the
index panic of a later moment; `msync` and `munmap` do not fail; nothing else is mapped to the addresses afterwards.
-/
namespace Gofer.Mmap

/-- What `NewMMAP` (mmap/mmap.go:18-36) leaves behind on a file holding `file`: the result and whether the file is mapped now
(`gommap.Map` succeeding). -/
def newMMAPLife (file : List UInt8) (startOffset : BitVec 64) : Option St × Bool :=
  if file.length = 0 then (none, false)
  else if (BitVec.ofNat 64 file.length).sle startOffset then (none, true)
  else (some ⟨startOffset, file, file, []⟩, true)

/-- How far a call is, beside what its entry says. -/
inductive Phase where
  /-- region reserved, before the slice expression -/
  | reserved
  /-- after the slice expression -/
  | sliced
  /-- ended by a panic -/
  | panicked
deriving DecidableEq, Repr

/-- The mapped file with its calls, a phase for each entry of the log, whether `t._mmap` is not nil, whether the process was killed. -/
structure Life where
  s : St
  ph : List Phase
  mapped : Bool
  crashed : Bool
deriving DecidableEq

/-- What can happen. -/
inductive LAct where
  /-- a locked section, or the kernel writing back a byte, as in `Model/Mmap.lean` -/
  | base (a : Act)
  /-- the slice expression of call `i` -/
  | slice (i : Nat)
  /-- `Flush`, also as the first half of `Close` -/
  | flush
  /-- `Unmap`, also as the second half of `Close` or the first of `UnmapAndCloseFile` -/
  | unmap

/-- A new mapping. -/
def live (s : St) : Life := ⟨s, [], true, false⟩

/-- The phases after a locked section: a new entry gets `reserved`. -/
def grow (ph : List Phase) (s' : St) : List Phase := ph ++ List.replicate (s'.log.length - ph.length) .reserved

/-- Call `i` has returned. -/
def over? (s : St) (i : Nat) : Bool := (s.log[i]?).any (·.returned)

/-- One step; `none` if it is not possible. -/
def lact (page : Nat) (l : Life) (a : LAct) : Option Life :=
  if l.crashed then none
  else
    match a with
    -- mmap/mmap.go:47-55, 68-77
    | .base (.append sy bs) => (act page l.s (.append sy bs)).map fun s' => { l with s := s', ph := grow l.ph s' }
    | .base (.writeAt sy bs o) => (act page l.s (.writeAt sy bs o)).map fun s' => { l with s := s', ph := grow l.ph s' }
    -- mmap/mmap.go:56, 78: slicing
    | .slice i =>
      match l.ph[i]?, l.s.log[i]? with
      | some .reserved, some e =>
        if l.mapped || (e.start == 0 && e.data.isEmpty) then some { l with ph := l.ph.set i .sliced }
        else some { l with ph := l.ph.set i .panicked }
      | _, _ => none
    -- mmap/mmap.go:56, 78: copying
    | .base (.copy i) =>
      match l.ph[i]? with
      | some .sliced =>
        match act page l.s (.copy i) with
        | none => none
        | some s' => if l.mapped then some { l with s := s' } else some { l with crashed := true }
      | _ => none
    -- mmap/mmap.go:57, 79
    | .base (.finish i) =>
      match l.ph[i]? with
      | some .sliced => if over? l.s i then none else (act page l.s (.finish i)).map fun s' => { l with s := s' }
      | _ => none
    -- mmap/mmap.go:62, 84: `&mappedMemory[...]` on a nil slice panics (mmap/sync_unix.go:27)
    | .base (.msync i) =>
      match l.ph[i]? with
      | some .sliced =>
        if over? l.s i then none
        else
        match act page l.s (.msync i) with
        | none => none
        | some s' => if l.mapped then some { l with s := s' } else some { l with ph := l.ph.set i .panicked }
      | _ => none
    | .base (.writeback a) => (act page l.s (.writeback a)).map fun s' => { l with s := s' }
    -- mmap/mmap.go:100-102
    | .flush => if l.mapped then some { l with s := { l.s with disk := l.s.mem } } else some l
    -- mmap/mmap.go:89-91; on a nil slice `Unmap` returns an error
    | .unmap => some { l with mapped := false }

/-- An execution. -/
def lexec (page : Nat) (l : Life) : List LAct → Option Life
  | [] => some l
  | a :: as =>
    match lact page l a with
    | some l' => lexec page l' as
    | none => none

/-- `mmapSyncToDisk` on Solaris does nothing (mmap/sync_solaris.go:17-19): the end of a Sync call there. -/
def msyncSolaris (s : St) (i : Nat) : Option St :=
  match s.log[i]? with
  | none => none
  | some e => if e.pos = e.data.length ∧ e.sync = true then some { s with log := s.log.set i { e with returned := true } } else none

end Gofer.Mmap
