import Verif.Spec.JsonStruct
import Verif.Model.Json
/-!
# `util.JsonEncode` and `util.JsonDecode` (/repo/util/gob.go:18-26) of structs

Over encoding/json of go1.23, written from knowledge of its published source. The scanner is that of `Model/Json`.

Simplified: the types are those of `Spec.JsonStruct.T` (no floats, interfaces, arrays, `[]byte`, other keys of maps, recursive types, types with their own methods for
JSON, the option `string`; the fields are those that `typeFields` gives, so embedding is left out); the walk over the document (decode.go) takes what the scanner
found as a tree with its strings unquoted; `foldName` (fold.go) is a parameter; of errors it is only said whether there is one.
-/
namespace Gofer.JsonStruct
open Gofer.Spec.Json (Bytes put)
open Gofer.Spec.JsonStruct
open Gofer.Json (Tree quote itoa commas minus isDigit parseNat unquote value skip)

/-! ## Encoding (util/gob.go:18-21) -/

/-- `isEmptyValue` (encode.go). -/
def isEmpty : V → Bool
  | .nil => true
  | .bool b => !b
  | .int i => i = 0
  | .str s => s.isEmpty
  | .list l _ => l.isEmpty
  | .map l => l.isEmpty
  | .ptr _ => false
  | .struct _ => false

mutual
/-- `boolEncoder`, `intEncoder`, `uintEncoder`, `stringEncoder`, `ptrEncoder`, `sliceEncoder`, `mapEncoder`, `structEncoder` (encode.go). -/
def enc : T → V → Bytes
  | .bool, .bool b => if b then [116, 114, 117, 101] else [102, 97, 108, 115, 101]
  | .int _ _, .int i => itoa i
  | .str, .str s => quote s
  | .ptr t, .ptr v => enc t v
  | .list t, .list l _ => 91 :: (commas (l.map (enc t)) ++ [93])
  | .map t, .map l => 123 :: (commas (l.map fun e => quote e.1 ++ 58 :: enc t e.2) ++ [125])
  | .struct fs, .struct l => 123 :: (commas (encFields fs l) ++ [125])
  | _, _ => [110, 117, 108, 108]

/-- The loop of `structEncoder.encode`. -/
def encFields : Fields → List V → List Bytes
  | .cons n o t fs, v :: l => if o && isEmpty v then encFields fs l else (quote n ++ 58 :: enc t v) :: encFields fs l
  | _, _ => []
end

/-- `JsonEncode` (util/gob.go:18-21). It never fails for these types. -/
def jsonEncode (t : T) (v : V) : Bytes := enc t v

/-! ## Decoding (util/gob.go:23-26) -/

mutual
/-- The tree with its strings unquoted (`unquoteBytes`, decode.go; it does not fail on what was scanned). -/
def mean : Tree → J
  | .null => .null
  | .bool b => .bool b
  | .num lit => .num lit
  | .str s => .str ((unquote s.length s).getD [])
  | .arr l => .arr (meanL l)
  | .obj l => .obj (meanM l)
termination_by structural t => t

def meanL : List Tree → List J
  | [] => []
  | t :: l => mean t :: meanL l
termination_by structural l => l

def meanM : List (Bytes × Tree) → List (Bytes × J)
  | [] => []
  | (k, t) :: l => ((unquote k.length k).getD [], mean t) :: meanM l
termination_by structural l => l
end

/-- The type that `indirect` (decode.go) arrives at. -/
def peel : T → T
  | .ptr t => peel t
  | t => t

/-- The value it arrives at; nil pointers on the way are set to new zero values. -/
def cur : T → V → V
  | .ptr t, v =>
    match v with
    | .ptr u => cur t u
    | _ => cur t (zero t)
  | _, v => v

/-- The pointers around a value. -/
def wrap : T → V → V
  | .ptr t, v => .ptr (wrap t v)
  | _, v => v

/-- `ParseInt` or `ParseUint`, and `OverflowInt` or `OverflowUint` (decode.go `literalStore`). -/
def parseNum (signed : Bool) (bits : Nat) (lit : Bytes) : Option Int :=
  if signed then
    if (minus lit).2.all isDigit then
      let i : Int := if (minus lit).1 = [45] then -(parseNat (minus lit).2 : Int) else parseNat (minus lit).2
      if -(2 : Int) ^ (bits - 1) ≤ i ∧ i < 2 ^ (bits - 1) then some i else none
    else none
  else if lit.all isDigit then if parseNat lit < 2 ^ bits then some (parseNat lit : Int) else none
  else none

/-- null (decode.go `literalStore`): sets pointers, maps and slices to nil and leaves the rest as it is. -/
def nullify : T → V → V
  | .ptr _, _ => .nil
  | .list _, _ => .nil
  | .map _, _ => .nil
  | _, v => v

section
variable (fold : Bytes → Bytes)

/-- `byExactName`, then `byFoldedName` (decode.go `object`). -/
def find (key : Bytes) (fs : List Field) : Option Nat :=
  match fs.findIdx? (fun f => f.name = key) with
  | some i => some i
  | none => fs.findIdx? (fun f => fold f.name = fold key)

mutual
/-- `value`, `literalStore`, `array` and `object` (decode.go): what is said is stored into the value; false if an error is saved. -/
def store (t : T) (v : V) : J → V × Bool
  | .null => (nullify t v, true)
  | .bool b =>
    match peel t with
    | .bool => (wrap t (.bool b), true)
    | _ => (wrap t (cur t v), false)
  | .num lit =>
    match peel t with
    | .int s n =>
      match parseNum s n lit with
      | some i => (wrap t (.int i), true)
      | none => (wrap t (cur t v), false)
    | _ => (wrap t (cur t v), false)
  | .str s =>
    match peel t with
    | .str => (wrap t (.str s), true)
    | _ => (wrap t (cur t v), false)
  | .arr l =>
    match peel t with
    | .list u =>
      let mem := match cur t v with
        | .list a b => a ++ b
        | _ => []
      let r := storeL u mem l
      (wrap t (if l.isEmpty then .list [] [] else .list r.1 (mem.drop l.length)), r.2)
    | _ => (wrap t (cur t v), false)
  | .obj l =>
    match peel t with
    | .map u =>
      let r := storeM u (match cur t v with | .map m => m | _ => []) l
      (wrap t (.map r.1), r.2)
    | .struct fs =>
      let r := storeF fs.toList (match cur t v with | .struct a => a | _ => []) l
      (wrap t (.struct r.1), r.2)
    | _ => (wrap t (cur t v), false)
termination_by structural j => j

/-- The loop of `array`: the memory of the elements to come, where it is not zero. -/
def storeL (t : T) (mem : List V) : List J → List V × Bool
  | [] => ([], true)
  | j :: l =>
    let x := store t (mem.headD (zero t)) j
    let r := storeL t mem.tail l
    (x.1 :: r.1, x.2 && r.2)
termination_by structural l => l

/-- The loop of `object` for a map. -/
def storeM (t : T) (m : List (Bytes × V)) : List (Bytes × J) → List (Bytes × V) × Bool
  | [] => (m, true)
  | (k, j) :: l =>
    let x := store t (zero t) j
    let r := storeM t (put k x.1 m) l
    (r.1, x.2 && r.2)
termination_by structural l => l

/-- The loop of `object` for a struct. -/
def storeF (fs : List Field) (vs : List V) : List (Bytes × J) → List V × Bool
  | [] => (vs, true)
  | (k, j) :: l =>
    match find fold k fs with
    | none => storeF fs vs l
    | some i =>
      match fs[i]?, vs[i]? with
      | some f, some v =>
        let x := store f.t v j
        let r := storeF fs (vs.set i x.1) l
        (r.1, x.2 && r.2)
      | _, _ => storeF fs vs l
termination_by structural l => l
end

/-- `JsonDecode[T]` (util/gob.go:23-26): the value it returns, and whether there is no error. `Unmarshal` checks the whole document before it stores anything. -/
def jsonDecode (t : T) (bs : Bytes) : V × Bool :=
  match value (2 * bs.length + 2) 0 bs with
  | none => (zero t, false)
  | some p => if skip p.2 = [] then store fold t (zero t) (mean p.1) else (zero t, false)

end
end Gofer.JsonStruct
