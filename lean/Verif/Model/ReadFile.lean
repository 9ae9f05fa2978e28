/-!
# Model of `util.ReadFile` (util/encode.go:136-145)

A file system that other processes and goroutines change while the call runs. Names lead to files (inodes); a file keeps its identity
when a name is taken away from it. `mmap.Open` of golang.org/x/exp is a library: open the file, ask for its size, give back an empty
reader if the size is 0, else map so many bytes. `ReadAt(bs, 0)` copies the mapped bytes, in any order and at any times (`copy`):
byte `i` is the one the file has at that moment, 0 behind the end of the file on its last page, and the process is killed (SIGBUS) on
a page that lies behind the end of the file altogether. A page has 4096 bytes.
-/
namespace Gofer.ReadFile

/-- A file. `sized = false`: a file whose size is given as 0 whatever it contains (devices, files of /proc). -/
structure File where
  data : List UInt8
  sized : Bool := true
deriving DecidableEq, Repr

/-- The files, and the file of every name. -/
structure FS (P : Type) where
  files : List File
  names : P → Option Nat

/-- What others do. -/
inductive Env (P : Type) where
  /-- write `bs` at offset `off` of file `ino` -/
  | write (ino off : Nat) (bs : List UInt8)
  /-- set the size of file `ino` -/
  | truncate (ino n : Nat)
  /-- a new file, without a name -/
  | create (f : File)
  /-- let `p` be the name of file `ino`: `rename` over the old one -/
  | rename (p : P) (ino : Nat)
  | remove (p : P)
deriving DecidableEq, Repr

variable {P : Type} [DecidableEq P]

/-- `data` filled up with zeros to `n` bytes. -/
def pad (data : List UInt8) (n : Nat) : List UInt8 := data ++ List.replicate (n - data.length) 0

def overwrite (data : List UInt8) (off : Nat) (bs : List UInt8) : List UInt8 :=
  (pad data off).take off ++ bs ++ data.drop (off + bs.length)

def change (files : List File) (ino : Nat) (f : List UInt8 → List UInt8) : List File :=
  match files[ino]? with
  | some k => files.set ino { k with data := f k.data }
  | none => files

def env (s : FS P) : Env P → FS P
  | .write ino off bs => { s with files := change s.files ino fun d => overwrite d off bs }
  | .truncate ino n => { s with files := change s.files ino fun d => (pad d n).take n }
  | .create f => { s with files := s.files ++ [f] }
  | .rename p ino => if ino < s.files.length then { s with names := fun q => if q = p then some ino else s.names q } else s
  | .remove p => { s with names := fun q => if q = p then none else s.names q }

/-- Where the call is. -/
inductive Pc where
  /-- before `os.Open` -/
  | start
  /-- the file is open, before `Stat` and `Mmap` -/
  | opened (ino : Nat)
  /-- mapped, with the bytes copied so far -/
  | mapped (ino : Nat) (buf : List (Option UInt8))
  | ok (bs : List UInt8)
  | error
  /-- the process has been killed -/
  | killed
deriving DecidableEq, Repr

structure St (P : Type) where
  fs : FS P
  pc : Pc

inductive Act (P : Type) where
  | env (e : Env P)
  /-- the next step of the call -/
  | step
  /-- `os.Open`, `Stat` or `Mmap` fails for another reason (rights, resources) -/
  | fail
  /-- byte `i` is copied -/
  | copy (i : Nat)
deriving DecidableEq, Repr

def pageSize : Nat := 4096

/-- `mmap.Open` (library) up to the opening: `os.Open`. -/
def openFile (s : FS P) (p : P) : Pc :=
  match s.names p with
  | none => .error
  | some ino => .opened ino

/-- `mmap.Open` (library) after the opening: size 0 is special; and `make([]byte, r.Len())` (util/encode.go:139). -/
def mapFile (s : FS P) (ino : Nat) : Option Pc :=
  match s.files[ino]? with
  | none => none
  | some f =>
    let size := if f.sized then f.data.length else 0
    some (if size = 0 then .ok [] else .mapped ino (List.replicate size none))

/-- One byte of `r.ReadAt(bs, 0)` (util/encode.go:140). -/
def copyByte (s : FS P) (ino : Nat) (buf : List (Option UInt8)) (i : Nat) : Option Pc :=
  match s.files[ino]?, buf[i]? with
  | some f, some none =>
    if i / pageSize * pageSize < f.data.length then some (.mapped ino (buf.set i (some (f.data.getD i 0)))) else some .killed
  | _, _ => none

/-- One step of `ReadFile(p)` (util/encode.go:136-145) or of the others. -/
def act (p : P) (s : St P) : Act P → Option (St P)
  | .env e => some { s with fs := env s.fs e }
  | .step =>
    match s.pc with
    | .start => some { s with pc := openFile s.fs p }
    | .opened ino => (mapFile s.fs ino).map fun pc => { s with pc := pc }
    | .mapped _ buf => if buf.all Option.isSome then some { s with pc := .ok (buf.map fun b => b.getD 0) } else none
    | _ => none
  | .fail =>
    match s.pc with
    | .start => some { s with pc := .error }
    | .opened _ => some { s with pc := .error }
    | _ => none
  | .copy i =>
    match s.pc with
    | .mapped ino buf => (copyByte s.fs ino buf i).map fun pc => { s with pc := pc }
    | _ => none

def exec (p : P) (s : St P) : List (Act P) → Option (St P)
  | [] => some s
  | a :: as => (act p s a).bind fun t => exec p t as

/-- The contents of a name at a moment. -/
def contents (s : FS P) (p : P) : Option (List UInt8) := (s.names p).bind fun ino => s.files[ino]?.map File.data

end Gofer.ReadFile
