/-!
# Model of `IsFileExist` (util/encode.go:128-134)

A file system is a tree of directories, symbolic links and other files; every directory is searchable by the caller or not. `os.Stat`
(library and system call, Linux) walks along the path. Errors of the disk, mounts and changes of the tree during the call are not modelled.
-/
namespace Gofer.FileExist

abbrev Bytes := List UInt8

/-- What a name in a directory stands for. `search` tells whether the caller may look names up in the directory. -/
inductive Node where
  | file
  | dir (search : Bool) (entries : List (Bytes × Node))
  | link (target : Bytes)

/-- Errors of `os.Stat`. `exist` and `notEmpty` are those for which `os.IsExist` is true. -/
inductive Errno where
  | noEntry | notDir | access | loop | nameTooLong | invalid | exist | notEmpty
deriving DecidableEq

/-- A component of a path: nothing (before, between or after slashes), ".", "..", or a name. -/
inductive Comp where
  | slash
  | here
  | up
  | name (n : Bytes)
deriving DecidableEq

/-- One component. -/
def comp (n : Bytes) : Comp := if n = [] then .slash else if n = [46] then .here else if n = [46, 46] then .up else .name n

/-- The text between slashes. -/
def pieces : Bytes → List Bytes
  | [] => [[]]
  | b :: r =>
    match pieces r with
    | [] => [[b]]
    | p :: ps => if b = 47 then [] :: p :: ps else (b :: p) :: ps

/-- The components of a path. -/
def comps (p : Bytes) : List Comp := (pieces p).map comp

/-- Where a path starts: at the root if it begins with a slash. A place is a node and the directories above it. -/
def start (root place : List Node) (p : Bytes) : List Node := if p.head? = some 47 then root else place

/-- The walk along the components; `follow` is what is done at a link. -/
def go (root : List Node) (follow : List Node → List Comp → Except Errno Node) : List Node → List Comp → Except Errno Node
  | [], _ => .error .noEntry
  | cur :: _, [] => .ok cur
  | cur :: above, .slash :: cs =>
    match cur with
    | .dir _ _ => go root follow (cur :: above) cs
    | _ => .error .notDir
  | cur :: above, c :: cs =>
    match cur with
    | .dir false _ => .error .access
    | .dir true es =>
      match c with
      | .slash => go root follow (cur :: above) cs
      | .here => go root follow (cur :: above) cs
      | .up => go root follow (if above = [] then [cur] else above) cs
      | .name n =>
        if n.length > 255 then .error .nameTooLong
        else
          match es.lookup n with
          | none => .error .noEntry
          | some (.link t) => if t = [] then .error .noEntry else follow (start root (cur :: above) t) (comps t ++ cs)
          | some x => go root follow (x :: cur :: above) cs
    | _ => .error .notDir

/-- The walk with at most so many links. -/
def walk (root : List Node) : Nat → List Node → List Comp → Except Errno Node
  | 0 => go root fun _ _ => .error .loop
  | n + 1 => go root (walk root n)

/-- `os.Stat` (library, Linux): paths with a zero byte, too long ones, and at most 40 links. -/
def stat (root cwd : List Node) (path : Bytes) : Except Errno Node :=
  if 0 ∈ path then .error .invalid
  else if path = [] then .error .noEntry
  else if path.length ≥ 4096 then .error .nameTooLong
  else walk root 40 (start root cwd path) (comps path)

/-- `os.IsExist` (library). -/
def isExist : Errno → Bool
  | .exist => true
  | .notEmpty => true
  | _ => false

/-- `IsFileExist` (util/encode.go:128-134), of a process with this root and working directory. -/
def isFileExist (root cwd : List Node) (path : Bytes) : Bool :=
  if path ≠ [] then
    match stat root cwd path with
    | .ok _ => true
    | .error e => isExist e
  else false

end Gofer.FileExist
