import Verif.Model.Mmap
/-!
# A file that is mapped more than once (mmap/mmap.go)

One after another: a file is mapped, data is appended, all calls return, `Close` (mmap/mmap.go:112-117: flush and unmap), and it is
mapped again behind the data. At the same time: several `Mmap`s of one file. `mmap-go` maps files shared (`RDWR` is `MAP_SHARED`), so
the bytes of all mappings are the same; every `Mmap` has an `offset` and a `mux` of its own (mmap/mmap.go:34, 38-44).

The steps of the calls are those of `Model/Mmap.lean`. Simplified: `Close` does not fail; the size of the file does not change.
-/
namespace Gofer.Mmap

/-- Where the data ends, as a caller can tell from the results of the calls: `Append` returns its start. The type `Mmap` has no method
for its offset. -/
def after (o : Nat) (log : List Entry) : Nat := log.foldl (fun m e => max m (e.start + e.data.length)) o

/-- `NewMMAP` (mmap/mmap.go:18-36), calls that all return, `Close` (mmap/mmap.go:112-117), again and again, each time from where the data
ended. The calls, the content of the file, where the data ends; `none` if `NewMMAP` fails or a call has not returned. -/
def sessions (page : Nat) (file : List UInt8) (o : Nat) : List (List Act) → Option (List Entry × List UInt8 × Nat)
  | [] => some ([], file, o)
  | as :: rest =>
    (newMMAP file (BitVec.ofNat 64 o)).bind fun s0 =>
      (exec page s0 as).bind fun s =>
        if s.log.all (·.returned) then
          (sessions page s.mem (after o s.log) rest).map fun r => (s.log ++ r.1, r.2)
        else none

/-- A file with several mappings: the offset of each, the bytes, the disk, the calls, and for each call the mapping it is made through. -/
structure Many where
  offs : List (BitVec 64)
  mem : List UInt8
  disk : List UInt8
  log : List Entry
  own : List Nat
deriving DecidableEq

/-- The file as mapping with offset `o` has it. -/
def Many.one (s : Many) (o : BitVec 64) : St := ⟨o, s.mem, s.disk, s.log⟩

/-- `NewMMAP` (mmap/mmap.go:18-36) several times on one file. -/
def newMany (file : List UInt8) (os : List (BitVec 64)) : Option Many :=
  if os.all (fun o => (newMMAP file o).isSome) then some ⟨os, file, file, [], []⟩ else none

/-- A step of a call through mapping `k`. -/
def actMany (page : Nat) (s : Many) (k : Nat) (a : Act) : Option Many :=
  s.offs[k]?.bind fun o => (act page (s.one o) a).map fun t =>
    ⟨s.offs.set k t.offset, t.mem, t.disk, t.log, s.own ++ List.replicate (t.log.length - s.log.length) k⟩

/-- An execution. -/
def execMany (page : Nat) (s : Many) : List (Nat × Act) → Option Many
  | [] => some s
  | (k, a) :: as => (actMany page s k a).bind fun t => execMany page t as

end Gofer.Mmap
