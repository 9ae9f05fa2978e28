import Verif.Spec.Regexp
import Verif.Model.Json
/-!
# `util.MatchString` (/repo/util/encode.go:106-112) over Go's regexp (go1.23)

`regexp.MatchString` parses the pattern (regexp/syntax/parse.go), simplifies it (simplify.go), compiles it to a program (compile.go) and runs the program
(regexp/exec.go, backtrack.go). All this is written from knowledge of its published source, which is not in the sandbox.

Simplified:
* the pattern is checked to be UTF-8 first, not as it is read; any error is the same error, as `MatchString` drops it;
* not modelled are `\p{…}`, `\Q…\E`, `[[:…:]]` and groups with names: `Err.other`;
* the limits on the size and the depth of a pattern (1000 levels, 3.3 million instructions) are left out;
* expressions are not merged on the way (`maybeConcat`, `factor`, `mergeCharClass`), classes are kept as written, and concatenations and alternations are nested pairs;
* shortcuts of the search are left out: the least length of a match, a literal prefix, programs that need no choice (onepass.go); positions count runes, not bytes.
-/
namespace Gofer.Regexp
open Gofer.Spec.Json (Bytes)
open Gofer.Spec.Regexp (Item Place)

/-! ## Strings -/

/-- The runes of a string as `inputString.step` (regexp.go) gives them, for util/encode.go:107. -/
def runesGo : Nat → Bytes → List Nat
  | 0, _ => []
  | _, [] => []
  | f + 1, b :: s => (Json.decodeRune (b :: s)).1 :: runesGo f ((b :: s).drop (Json.decodeRune (b :: s)).2)

def runes (s : Bytes) : List Nat := runesGo s.length s

/-- The runes of a pattern as `nextRune` (parse.go) gives them; `none` is ErrInvalidUTF8. -/
def patternGo : Nat → Bytes → Option (List Nat)
  | 0, _ => some []
  | _, [] => some []
  | f + 1, b :: s =>
    let d := Json.decodeRune (b :: s)
    if d.1 = Json.runeError ∧ d.2 = 1 then none else (patternGo f ((b :: s).drop d.2)).map (d.1 :: ·)

def pattern (s : Bytes) : Option (List Nat) := patternGo s.length s

/-! ## Parsing (regexp/syntax/parse.go) -/

/-- `Flags`: FoldCase, OneLine, DotNL, NonGreedy. -/
structure Flags where
  fold : Bool
  oneLine : Bool
  dotNL : Bool
  nonGreedy : Bool

/-- `syntax.Perl`, the flags of `regexp.Compile`. -/
def Flags.perl : Flags := ⟨false, true, false, false⟩

/-- `^flags`. -/
def Flags.inv (f : Flags) : Flags := ⟨!f.fold, !f.oneLine, !f.dotNL, !f.nonGreedy⟩

/-- What one rune is tested for: OpLiteral, OpCharClass, OpAnyChar, OpAnyCharNotNL. -/
inductive Test
  | lit (fold : Bool) (c : Nat)
  | cls (fold neg : Bool) (l : List Item)
  | any
  | anyNotNL
  deriving DecidableEq

/-- `syntax.Regexp`: OpEmptyMatch, the tests, OpBeginText and the like, OpCapture, OpStar, OpPlus, OpQuest, OpRepeat, OpConcat, OpAlternate. -/
inductive Tree
  | empty
  | test (t : Test)
  | place (p : Place)
  | cap (n : Nat) (t : Tree)
  | star (lazy : Bool) (t : Tree)
  | plus (lazy : Bool) (t : Tree)
  | quest (lazy : Bool) (t : Tree)
  | rep (lo : Nat) (hi : Option Nat) (lazy : Bool) (t : Tree)
  | cat (a b : Tree)
  | alt (a b : Tree)
  deriving DecidableEq

/-- What is on the parser's stack: an expression, opVerticalBar, opLeftParen with its number (`none`: no capture) and the flags before it. -/
inductive Cell
  | tree (t : Tree)
  | bar
  | paren (cap : Option Nat) (flags : Flags)

/-- `parser`: the stack, top first; the flags; the number of captures; whether a repetition was read last (`lastRepeat != ""`). -/
structure P where
  stack : List Cell
  flags : Flags
  caps : Nat
  again : Bool

inductive Err
  | bad
  | other
  deriving DecidableEq

def P.init : P := ⟨[], .perl, 0, false⟩

/-- `push`. -/
def P.push (p : P) (x : Cell) : P := { p with stack := x :: p.stack, again := false }

/-- The expressions above the next pseudo-operator, top first, and the rest of the stack. -/
def trees : List Cell → List Tree × List Cell
  | .tree t :: s => (t :: (trees s).1, (trees s).2)
  | s => ([], s)

def joinCat : List Tree → Tree
  | [] => .empty
  | [t] => t
  | t :: l => .cat (joinCat l) t

def joinAlt : List Tree → Tree
  | [] => .empty
  | [t] => t
  | t :: l => .alt (joinAlt l) t

/-- `concat`. -/
def concat (s : List Cell) : List Cell := .tree (joinCat (trees s).1) :: (trees s).2

/-- `alternate`. -/
def alternate (s : List Cell) : List Cell := .tree (joinAlt (trees s).1) :: (trees s).2

/-- `swapVerticalBar`. -/
def swapBar : List Cell → List Cell × Bool
  | x :: .bar :: s => (.bar :: x :: s, true)
  | s => (s, false)

/-- `parseVerticalBar`. -/
def verticalBar (s : List Cell) : List Cell :=
  let x := swapBar (concat s)
  if x.2 then x.1 else .bar :: x.1

/-- What `parseRightParen` and the end of `parse` begin with. -/
def close (s : List Cell) : List Cell :=
  let x := swapBar (concat s)
  alternate (if x.2 then x.1.tail else x.1)

/-- `parseRightParen`. -/
def rightParen (p : P) : Except Err P :=
  match close p.stack with
  | .tree t :: .paren cap fl :: s => .ok { p with stack := .tree (match cap with | none => t | some n => .cap n t) :: s, flags := fl, again := false }
  | _ => .error .bad

/-- `repeatIsValid`. -/
def repeatIsValid : Tree → Nat → Bool
  | .rep lo hi _ t, n =>
    if hi = some 0 then true
    else
      let m := hi.getD lo
      if n < m then false else repeatIsValid t (if 0 < m then n / m else n)
  | .cap _ t, n => repeatIsValid t n
  | .star _ t, n => repeatIsValid t n
  | .plus _ t, n => repeatIsValid t n
  | .quest _ t, n => repeatIsValid t n
  | .cat a b, n => repeatIsValid a n && repeatIsValid b n
  | .alt a b, n => repeatIsValid a n && repeatIsValid b n
  | _, _ => true

/-- `repeat`: a repetition was read, `after` is what comes after it; `op` makes the expression (given whether it is lazy), `check` is set for `{…}`. -/
def repeatOp (p : P) (op : Bool → Tree → Tree) (check : Bool) (after : List Nat) : Except Err (P × List Nat) :=
  let lazy := after.head? = some 63
  let after := if lazy then after.tail else after
  if p.again then .error .bad
  else
    match p.stack with
    | .tree t :: s =>
      let r := op (if lazy then !p.flags.nonGreedy else p.flags.nonGreedy) t
      if check && !repeatIsValid r 1000 then .error .bad else .ok ({ p with stack := .tree r :: s, again := true }, after)
    | _ => .error .bad

def isDigit (c : Nat) : Bool := 48 ≤ c && c ≤ 57

/-- The value of digits in `parseInt`; `none` is -1, too big. -/
def number : Nat → List Nat → Option Nat
  | n, [] => some n
  | n, d :: ds => if 100000000 ≤ n then none else number (n * 10 + (d - 48)) ds

/-- `parseInt`. -/
def parseInt (t : List Nat) : Option (Option Nat × List Nat) :=
  let ds := t.takeWhile isDigit
  if ds = [] then none else if ds.head? = some 48 ∧ 1 < ds.length then none else some (number 0 ds, t.dropWhile isDigit)

/-- `parser.repeat` after `{`: `none` if it is no repetition; the numbers (`none`: too big) and the rest. -/
def parseRepeat (t : List Nat) : Option (Option (Nat × Option Nat) × List Nat) :=
  match parseInt t with
  | none => none
  | some (lo, 44 :: 125 :: r) => some (lo.map fun n => (n, none), r)
  | some (lo, 44 :: t2) =>
    match parseInt t2 with
    | some (hi, 125 :: r) => some (lo.bind fun n => hi.map fun m => (n, some m), r)
    | _ => none
  | some (lo, 125 :: r) => some (lo.map fun n => (n, some n), r)
  | _ => none

/-- `unhex`. -/
def unhex (c : Nat) : Option Nat :=
  if 48 ≤ c ∧ c ≤ 57 then some (c - 48) else if 97 ≤ c ∧ c ≤ 102 then some (c - 97 + 10) else if 65 ≤ c ∧ c ≤ 70 then some (c - 65 + 10) else none

/-- `\x{`. -/
def hexBrace (r : Nat) (saw : Bool) : List Nat → Option (Nat × List Nat)
  | [] => none
  | c :: t =>
    if c = 125 then (if saw then some (r, t) else none)
    else
      match unhex c with
      | none => none
      | some v => if 0x10FFFF < r * 16 + v then none else hexBrace (r * 16 + v) true t

/-- `\x`. -/
def hexEscape : List Nat → Option (Nat × List Nat)
  | [] => none
  | a :: t =>
    if a = 123 then hexBrace 0 false t
    else
      match t with
      | [] => none
      | b :: t =>
        match unhex a, unhex b with
        | some x, some y => some (x * 16 + y, t)
        | _, _ => none

def isOctal (c : Nat) : Bool := 48 ≤ c && c ≤ 55

/-- Up to `k` more octal digits. -/
def octal : Nat → Nat → List Nat → Nat × List Nat
  | 0, r, t => (r, t)
  | k + 1, r, d :: t => if isOctal d then octal k (r * 8 + (d - 48)) t else (r, d :: t)
  | _, r, [] => (r, [])

def isAlnum (c : Nat) : Bool := (48 ≤ c && c ≤ 57) || (65 ≤ c && c ≤ 90) || (97 ≤ c && c ≤ 122)

/-- `parseEscape` after the backslash. -/
def escape : List Nat → Option (Nat × List Nat)
  | [] => none
  | c :: t =>
    if 49 ≤ c ∧ c ≤ 55 then
      match t with
      | d :: _ => if isOctal d then some (octal 2 (c - 48) t) else none
      | [] => none
    else if c = 48 then some (octal 2 0 t)
    else if c = 120 then hexEscape t
    else if c = 97 then some (7, t)
    else if c = 102 then some (12, t)
    else if c = 110 then some (10, t)
    else if c = 114 then some (13, t)
    else if c = 116 then some (9, t)
    else if c = 118 then some (11, t)
    else if c < 128 ∧ !isAlnum c then some (c, t)
    else none

/-- `perlGroup` (perl_groups.go). -/
def perlGroup (x : Nat) : Option Item :=
  if x = 100 then some (.group false [(48, 57)])
  else if x = 68 then some (.group true [(48, 57)])
  else if x = 115 then some (.group false [(9, 10), (12, 13), (32, 32)])
  else if x = 83 then some (.group true [(9, 10), (12, 13), (32, 32)])
  else if x = 119 then some (.group false [(48, 57), (65, 90), (95, 95), (97, 122)])
  else if x = 87 then some (.group true [(48, 57), (65, 90), (95, 95), (97, 122)])
  else none

/-- `parseClassChar`. -/
def classChar : List Nat → Option (Nat × List Nat)
  | [] => none
  | c :: t => if c = 92 then escape t else some (c, t)

/-- A single character or a range in brackets. -/
def classRange (t : List Nat) : Option (Item × List Nat) :=
  match classChar t with
  | none => none
  | some (lo, t) =>
    if 2 ≤ t.length ∧ t[0]? = some 45 ∧ t[1]? ≠ some 93 then
      match classChar t.tail with
      | none => none
      | some (hi, t) => if hi < lo then none else some (.range lo hi, t)
    else some (.range lo lo, t)

/-- The loop of `parseClass`. -/
def classLoop : Nat → Bool → List Item → List Nat → Except Err (List Item × List Nat)
  | 0, _, _, _ => .error .bad
  | f + 1, first, acc, t =>
    if t.head? = some 93 ∧ first = false then .ok (acc, t.tail)
    else if 2 < t.length ∧ t[0]? = some 91 ∧ t[1]? = some 58 then .error .other
    else if t[0]? = some 92 ∧ (t[1]? = some 112 ∨ t[1]? = some 80) then .error .other
    else
      match (if t[0]? = some 92 then t[1]?.bind perlGroup else none) with
      | some g => classLoop f false (acc ++ [g]) (t.drop 2)
      | none =>
        match classRange t with
        | none => .error .bad
        | some (x, t) => classLoop f false (acc ++ [x]) t

/-- `parseClass` after the bracket. -/
def parseClass (t : List Nat) : Except Err (Bool × List Item × List Nat) :=
  let neg := t.head? = some 94
  let t := if neg then t.tail else t
  (classLoop (t.length + 1) true [] t).map fun x => (decide neg, x)

/-- The loop of `parsePerlFlags`: the flags, whether `-` came, whether a flag came; the new flags, whether a group begins, and the rest. -/
def flagLoop (fl : Flags) (minus saw : Bool) : List Nat → Option (Flags × Bool × List Nat)
  | [] => none
  | c :: t =>
    if c = 105 then flagLoop { fl with fold := true } minus true t
    else if c = 109 then flagLoop { fl with oneLine := false } minus true t
    else if c = 115 then flagLoop { fl with dotNL := true } minus true t
    else if c = 85 then flagLoop { fl with nonGreedy := true } minus true t
    else if c = 45 then (if minus then none else flagLoop fl.inv true false t)
    else if c = 58 ∨ c = 41 then
      if minus && !saw then none else some (if minus then fl.inv else fl, decide (c = 58), t)
    else none

/-- `parsePerlFlags` after `(?`. -/
def perlFlags (p : P) (t : List Nat) : Except Err (P × List Nat) :=
  if t.head? = some 60 ∨ (t[0]? = some 80 ∧ t[1]? = some 60) then .error .other
  else
    match flagLoop p.flags false false t with
    | none => .error .bad
    | some (fl, grp, t) =>
      if grp then .ok ({ p.push (.paren none p.flags) with flags := fl }, t) else .ok ({ p with flags := fl, again := false }, t)

def fromOption {α : Type} : Option α → Except Err α
  | some a => .ok a
  | none => .error .bad

/-- After a backslash outside of brackets. -/
def backslash (p : P) (t : List Nat) : Except Err (P × List Nat) :=
  if t.head? = some 65 then .ok (p.push (.tree (.place .textBegin)), t.tail)
  else if t.head? = some 98 then .ok (p.push (.tree (.place .border)), t.tail)
  else if t.head? = some 66 then .ok (p.push (.tree (.place .noBorder)), t.tail)
  else if t.head? = some 67 then .error .bad
  else if t.head? = some 81 then .error .other
  else if t.head? = some 122 then .ok (p.push (.tree (.place .textEnd)), t.tail)
  else if t.head? = some 112 ∨ t.head? = some 80 then .error .other
  else
    match t.head?.bind perlGroup with
    | some g => .ok (p.push (.tree (.test (.cls p.flags.fold false [g]))), t.tail)
    | none => (fromOption (escape t)).map fun x => (p.push (.tree (.test (.lit p.flags.fold x.1))), x.2)

/-- `{`. -/
def brace (p : P) (t : List Nat) : Except Err (P × List Nat) :=
  match parseRepeat t with
  | none => .ok (p.push (.tree (.test (.lit p.flags.fold 123))), t)
  | some (none, _) => .error .bad
  | some (some (lo, hi), after) =>
    if 1000 < lo ∨ (∃ m ∈ hi, 1000 < m ∨ m < lo) then .error .bad
    else repeatOp p (Tree.rep lo hi) (decide (2 ≤ lo ∨ ∃ m ∈ hi, 2 ≤ m)) after

/-- One round of the loop of `parse`. -/
def step (p : P) : List Nat → Except Err (P × List Nat)
  | [] => .error .bad
  | c :: t =>
    if c = 40 then
      if t.head? = some 63 then perlFlags p t.tail
      else .ok ({ p.push (.paren (some (p.caps + 1)) p.flags) with caps := p.caps + 1 }, t)
    else if c = 124 then .ok ({ p with stack := verticalBar p.stack, again := false }, t)
    else if c = 41 then (rightParen p).map fun p => (p, t)
    else if c = 94 then .ok (p.push (.tree (.place (if p.flags.oneLine then .textBegin else .lineBegin))), t)
    else if c = 36 then .ok (p.push (.tree (.place (if p.flags.oneLine then .textEnd else .lineEnd))), t)
    else if c = 46 then .ok (p.push (.tree (.test (if p.flags.dotNL then .any else .anyNotNL))), t)
    else if c = 91 then (parseClass t).map fun x => (p.push (.tree (.test (.cls p.flags.fold x.1 x.2.1))), x.2.2)
    else if c = 42 then repeatOp p .star false t
    else if c = 43 then repeatOp p .plus false t
    else if c = 63 then repeatOp p .quest false t
    else if c = 123 then brace p t
    else if c = 92 then backslash p t
    else .ok (p.push (.tree (.test (.lit p.flags.fold c))), t)

def parseLoop : Nat → P → List Nat → Except Err P
  | _, p, [] => .ok p
  | 0, _, _ => .error .bad
  | f + 1, p, t => (step p t).bind fun x => parseLoop f x.1 x.2

/-- `parse`. -/
def parse (t : List Nat) : Except Err Tree :=
  (parseLoop t.length .init t).bind fun p =>
    match close p.stack with
    | [.tree x] => .ok x
    | _ => .error .bad

/-! ## Simplifying (regexp/syntax/simplify.go) -/

/-- `simplify1` for OpStar, OpPlus, OpQuest. -/
def star1 (lazy : Bool) (t : Tree) : Tree :=
  match t with
  | .empty => .empty
  | .star l u => if l = lazy then .star l u else .star lazy (.star l u)
  | t => .star lazy t

def plus1 (lazy : Bool) (t : Tree) : Tree :=
  match t with
  | .empty => .empty
  | .plus l u => if l = lazy then .plus l u else .plus lazy (.plus l u)
  | t => .plus lazy t

def quest1 (lazy : Bool) (t : Tree) : Tree :=
  match t with
  | .empty => .empty
  | .quest l u => if l = lazy then .quest l u else .quest lazy (.quest l u)
  | t => .quest lazy t

/-- `n` copies. -/
def copies : Nat → Tree → Tree
  | 0, _ => .empty
  | 1, t => t
  | n + 1, t => .cat (copies n t) t

/-- `(x(x(x)?)?)?`, with `n + 1` of them. -/
def nest (lazy : Bool) (t : Tree) : Nat → Tree
  | 0 => quest1 lazy t
  | n + 1 => quest1 lazy (.cat t (nest lazy t n))

/-- `x{lo,hi}` of the simplified `t`. -/
def expand (lo : Nat) (hi : Option Nat) (lazy : Bool) (t : Tree) : Tree :=
  match hi with
  | none => if lo = 0 then star1 lazy t else if lo = 1 then plus1 lazy t else .cat (copies (lo - 1) t) (plus1 lazy t)
  | some m =>
    if lo = 0 ∧ m = 0 then .empty
    else if lo = 1 ∧ m = 1 then t
    else if lo < m then
      if lo = 0 then nest lazy t (m - 1) else .cat (copies lo t) (nest lazy t (m - lo - 1))
    else copies lo t

/-- `Simplify`. -/
def simplify : Tree → Tree
  | .cap n t => .cap n (simplify t)
  | .star l t => star1 l (simplify t)
  | .plus l t => plus1 l (simplify t)
  | .quest l t => quest1 l (simplify t)
  | .rep lo hi l t => expand lo hi l (simplify t)
  | .cat a b => .cat (simplify a) (simplify b)
  | .alt a b => .alt (simplify a) (simplify b)
  | t => t

/-! ## Compiling (regexp/syntax/compile.go) -/

/-- `Inst`: InstFail, InstAlt, InstEmptyWidth, InstNop, InstCapture, InstRune, InstMatch. -/
inductive Inst
  | fail
  | alt (out arg : Nat)
  | place (p : Place) (out : Nat)
  | nop (out : Nat)
  | cap (n out : Nat)
  | rune (t : Test) (out : Nat)
  | mtch
  deriving DecidableEq

abbrev Prog := List Inst

/-- A place in an instruction that holds a number of an instruction: `Out`, or `Arg` (`true`). -/
abbrev Arm := Nat × Bool

/-- `frag`: its first instruction, the arms still to be filled in (`patchList`), whether it can match the empty string. -/
structure Frag where
  i : Nat
  out : List Arm
  nullable : Bool

def Inst.set (v : Nat) (b : Bool) : Inst → Inst
  | .alt o a => if b then .alt o v else .alt v a
  | .place p _ => .place p v
  | .nop _ => .nop v
  | .cap n _ => .cap n v
  | .rune t _ => .rune t v
  | x => x

/-- `patchList.patch`. -/
def patch (p : Prog) (l : List Arm) (v : Nat) : Prog := l.foldl (fun p a => p.modify a.1 (Inst.set v a.2)) p

/-- `quest`. -/
def quest (p : Prog) (f : Frag) (lazy : Bool) : Prog × Frag :=
  if lazy then (p ++ [.alt 0 f.i], ⟨p.length, (p.length, false) :: f.out, true⟩) else (p ++ [.alt f.i 0], ⟨p.length, (p.length, true) :: f.out, true⟩)

/-- `loop`. -/
def loop (p : Prog) (f : Frag) (lazy : Bool) : Prog × Frag :=
  if lazy then (patch (p ++ [.alt 0 f.i]) f.out p.length, ⟨p.length, [(p.length, false)], true⟩)
  else (patch (p ++ [.alt f.i 0]) f.out p.length, ⟨p.length, [(p.length, true)], true⟩)

/-- `plus`. -/
def plus (p : Prog) (f : Frag) (lazy : Bool) : Prog × Frag := ((loop p f lazy).1, ⟨f.i, (loop p f lazy).2.out, f.nullable⟩)

/-- `star`. -/
def star (p : Prog) (f : Frag) (lazy : Bool) : Prog × Frag :=
  if f.nullable then quest (plus p f lazy).1 (plus p f lazy).2 lazy else loop p f lazy

/-- `alt`. -/
def alt (p : Prog) (f1 f2 : Frag) : Prog × Frag := (p ++ [.alt f1.i f2.i], ⟨p.length, f1.out ++ f2.out, f1.nullable || f2.nullable⟩)

/-- `cat`. -/
def cat (p : Prog) (f1 f2 : Frag) : Prog × Frag := (patch p f1.out f2.i, ⟨f1.i, f2.out, f1.nullable && f2.nullable⟩)

/-- An instruction with one arm. -/
def emit (p : Prog) (x : Inst) (nullable : Bool) : Prog × Frag := (p ++ [x], ⟨p.length, [(p.length, false)], nullable⟩)

/-- `compile`. -/
def compile : Tree → Prog → Prog × Frag
  | .empty, p => emit p (.nop 0) true
  | .test t, p => emit p (.rune t 0) false
  | .place x, p => emit p (.place x 0) true
  | .cap n t, p =>
    let b := emit p (.cap (2 * n) 0) true
    let s := compile t b.1
    let k := emit s.1 (.cap (2 * n + 1) 0) true
    let c := cat k.1 b.2 s.2
    cat c.1 c.2 k.2
  | .star l t, p => let s := compile t p; star s.1 s.2 l
  | .plus l t, p => let s := compile t p; plus s.1 s.2 l
  | .quest l t, p => let s := compile t p; quest s.1 s.2 l
  | .rep _ _ _ t, p => compile t p -- `panic("regexp: unhandled case in compile")`: Simplify leaves none
  | .cat a b, p => let f := compile a p; let g := compile b f.1; cat g.1 f.2 g.2
  | .alt a b, p => let f := compile a p; let g := compile b f.1; alt g.1 f.2 g.2

/-- `Compile`: the program and its start. -/
def program (t : Tree) : Prog × Nat :=
  let f := compile t [.fail]
  (patch (f.1 ++ [.mtch]) f.2.out f.1.length, f.2.i)

/-! ## Running -/

section run
variable (fold : Nat → Nat → Bool)

/-- A rune is `c`, or with FoldCase in the orbit of `c` under `unicode.SimpleFold`. -/
def like (i : Bool) (c r : Nat) : Bool := c = r || (i && fold c r)

/-- A rune is in a range, with FoldCase in the range as made bigger by `appendFoldedRange`. -/
def inRange (i : Bool) (lo hi r : Nat) : Bool := if i then (List.range (hi + 1)).any fun c => lo ≤ c && like fold i c r else lo ≤ r && r ≤ hi

def inItem (i : Bool) (r : Nat) : Item → Bool
  | .range lo hi => inRange fold i lo hi r
  | .group neg g => (g.any fun p => inRange fold i p.1 p.2 r) != neg

/-- `Inst.MatchRune`. -/
def Test.ok (r : Nat) : Test → Bool
  | .lit i c => like fold i c r
  | .cls i neg l => (l.any (inItem fold i r)) != neg
  | .any => true
  | .anyNotNL => r != 10

/-- `IsWordChar`; false for no rune. -/
def isWord : Option Nat → Bool
  | none => false
  | some c => (48 ≤ c && c ≤ 57) || (65 ≤ c && c ≤ 90) || c = 95 || (97 ≤ c && c ≤ 122)

/-- The rune before position `i`. -/
def before (w : List Nat) (i : Nat) : Option Nat := if i = 0 then none else w[i - 1]?

/-- `lazyFlag.match`. -/
def placeOk (w : List Nat) (i : Nat) : Place → Bool
  | .textBegin => (before w i).isNone
  | .textEnd => w[i]?.isNone
  | .lineBegin => before w i = none || before w i = some 10
  | .lineEnd => w[i]? = none || w[i]? = some 10
  | .border => isWord (before w i) != isWord w[i]?
  | .noBorder => isWord (before w i) == isWord w[i]?

/-- `StartCond`: whether every match must begin at the begin of the text. -/
def anchored (p : Prog) : Nat → Nat → Bool
  | 0, _ => false
  | f + 1, pc =>
    match p[pc]? with
    | some (.place .textBegin _) => true
    | some (.place _ o) => anchored p f o
    | some (.nop o) => anchored p f o
    | some (.cap _ o) => anchored p f o
    | _ => false

/-- `bitState`: what was visited, and the jobs, top first. -/
structure Bits where
  seen : List (Nat × Nat)
  jobs : List (Nat × Nat × Bool)

/-- `shouldVisit` and `push`. -/
def Bits.push (b : Bits) (p : Prog) (pc i : Nat) : Bits :=
  if p[pc]? = some .fail ∨ (pc, i) ∈ b.seen then b else ⟨(pc, i) :: b.seen, (pc, i, false) :: b.jobs⟩

/-- One round of the loop of `tryBacktrack` (backtrack.go): `none` is a match. What is done at once (`goto CheckAndLoop`) is pushed and popped here. -/
def bitStep (p : Prog) (w : List Nat) (seen : List (Nat × Nat)) (pc i : Nat) (arg : Bool) (jobs : List (Nat × Nat × Bool)) : Option Bits :=
  match p[pc]? with
  | some (.alt o a) => if arg then some (Bits.push ⟨seen, jobs⟩ p a i) else some (Bits.push ⟨seen, (pc, i, true) :: jobs⟩ p o i)
  | some (.place x o) => some (if placeOk w i x then Bits.push ⟨seen, jobs⟩ p o i else ⟨seen, jobs⟩)
  | some (.nop o) => some (Bits.push ⟨seen, jobs⟩ p o i)
  | some (.cap _ o) => some (Bits.push ⟨seen, jobs⟩ p o i)
  | some (.rune t o) => some (if w[i]?.any fun r => t.ok fold r then Bits.push ⟨seen, jobs⟩ p o (i + 1) else ⟨seen, jobs⟩)
  | some .mtch => none
  | _ => some ⟨seen, jobs⟩

/-- `tryBacktrack`: `none` is a match; what was visited; and the number of rounds. -/
def tryBits (p : Prog) (w : List Nat) : Nat → Bits → Option (List (Nat × Nat)) × Nat
  | 0, b => (some b.seen, 0)
  | f + 1, b =>
    match b.jobs with
    | [] => (some b.seen, 0)
    | (pc, i, arg) :: jobs =>
      match bitStep fold p w b.seen pc i arg jobs with
      | none => (none, 1)
      | some b' => let x := tryBits p w f b'; (x.1, x.2 + 1)

/-- More rounds than `tryBacktrack` ever makes (C234). -/
def bitFuel (p : Prog) (w : List Nat) : Nat := 2 * p.length * (w.length + 1)

/-- The loop of `backtrack` over the positions from `i` on, `n` of them: the answer, and the number of rounds. -/
def bitSearch (p : Prog) (start : Nat) (w : List Nat) : Nat → Nat → List (Nat × Nat) → Bool × Nat
  | 0, _, _ => (false, 0)
  | n + 1, i, seen =>
    let x := tryBits fold p w (bitFuel p w) (Bits.push ⟨seen, []⟩ p start i)
    match x.1 with
    | none => (true, x.2)
    | some seen => let y := bitSearch p start w n (i + 1) seen; (y.1, x.2 + y.2)

/-- `backtrack`. -/
def backtrack (p : Prog) (start : Nat) (w : List Nat) : Bool × Nat :=
  bitSearch fold p start w (if anchored p p.length start then 1 else w.length + 1) 0 []

/-- `machine.add` (exec.go): the queue, newest first; `todo`: the calls to come. The number of calls. -/
def add (p : Prog) (w : List Nat) (i : Nat) : Nat → List Nat → List Nat → List Nat × Nat
  | 0, q, _ => (q, 0)
  | f + 1, q, todo =>
    match todo with
    | [] => (q, 0)
    | pc :: todo =>
      if pc = 0 ∨ pc ∈ q then let x := add p w i f q todo; (x.1, x.2 + 1)
      else
        let next := match p[pc]? with
          | some (.alt o a) => [o, a]
          | some (.place x o) => if placeOk w i x then [o] else []
          | some (.nop o) => [o]
          | some (.cap _ o) => [o]
          | _ => []
        let x := add p w i f (pc :: q) (next ++ todo)
        (x.1, x.2 + 1)

/-- More calls than one `add` ever makes. -/
def addFuel (p : Prog) : Nat := 2 * p.length + 1

/-- `machine.step` (exec.go): the threads in order; the next queue; whether there is a match; the number of calls of `add` and threads. -/
def stepAll (p : Prog) (w : List Nat) (i : Nat) : List Nat → List Nat → List Nat × Bool × Nat
  | [], next => (next, false, 0)
  | pc :: run, next =>
    match p[pc]? with
    | some .mtch => (next, true, 1)
    | some (.rune t o) =>
      if w[i]?.any fun r => t.ok fold r then
        let a := add p w (i + 1) (addFuel p) next [o]
        let x := stepAll p w i run a.1
        (x.1, x.2.1, x.2.2 + a.2 + 1)
      else let x := stepAll p w i run next; (x.1, x.2.1, x.2.2 + 1)
    | _ => let x := stepAll p w i run next; (x.1, x.2.1, x.2.2 + 1)

/-- `machine.match` (exec.go) from position `i` on, `n` positions to come: the answer, and the number of calls of `add` and threads. -/
def nfaSearch (p : Prog) (start : Nat) (w : List Nat) : Nat → Nat → List Nat → Bool × Nat
  | 0, _, _ => (false, 0)
  | n + 1, i, run =>
    if run = [] ∧ anchored p p.length start = true ∧ i ≠ 0 then (false, 0)
    else
      let a := add p w i (addFuel p) run [start]
      let x := stepAll fold p w i a.1.reverse []
      if x.2.1 then (true, a.2 + x.2.2) else let y := nfaSearch p start w n (i + 1) x.1; (y.1, a.2 + x.2.2 + y.2)

/-- `machine.match`. -/
def nfa (p : Prog) (start : Nat) (w : List Nat) : Bool × Nat := nfaSearch fold p start w (w.length + 1) 0 []

/-- `maxBitStateLen` (backtrack.go). -/
def maxBitStateLen (p : Prog) : Nat := if 500 < p.length then 0 else 256 * 1024 / p.length

/-- `doExecute` (exec.go) on a string of `len` bytes. -/
def execute (p : Prog) (start : Nat) (w : List Nat) (len : Nat) : Bool × Nat :=
  if len < maxBitStateLen p then backtrack fold p start w else nfa fold p start w

/-- `MatchString` (util/encode.go:106-112), with the number of steps of the search; `none`: the pattern uses something that is not modelled. -/
def matchSteps (pat s : Bytes) : Option (Bool × Nat) :=
  match pattern pat with
  | none => some (false, 0)
  | some t =>
    match parse t with
    | .error .bad => some (false, 0)
    | .error .other => none
    | .ok x => some (execute fold (program (simplify x)).1 (program (simplify x)).2 (runes s) s.length)

def matchString (pat s : Bytes) : Option Bool := (matchSteps fold pat s).map fun x => x.1

end run
end Gofer.Regexp
