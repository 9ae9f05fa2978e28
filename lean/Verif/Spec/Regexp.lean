import Verif.Spec.Json
/-!
# Regular expressions

What a user of `util.MatchString` knows: how patterns are written (a part of the syntax documented for Go's regexp/syntax) and what they fit. Texts are lists of code points.
-/
namespace Gofer.Spec.Regexp
open Gofer.Spec.Json (Bytes Scalar utf8)

/-- Part of a class in brackets: a range, or a group like `\d` (negated: `\D`). -/
inductive Item
  | range (lo hi : Nat)
  | group (neg : Bool) (g : List (Nat × Nat))
  deriving DecidableEq

/-- A place in a text. -/
inductive Place
  | textBegin
  | textEnd
  | lineBegin
  | lineEnd
  | border
  | noBorder
  deriving DecidableEq

/-- Regular expressions. `i`: case does not matter; `nl`: the dot fits a newline too; `rep a lo hi`: at least `lo` times, and at most `hi` times if given. -/
inductive Re
  | eps
  | chr (i : Bool) (c : Nat)
  | any (nl : Bool)
  | cls (i neg : Bool) (l : List Item)
  | at (p : Place)
  | cat (a b : Re)
  | alt (a b : Re)
  | rep (a : Re) (lo : Nat) (hi : Option Nat)

section meaning
variable (fold : Nat → Nat → Bool)

/-- `r` is `c`, or the same letter in another case (`fold`: Unicode's simple case folding). -/
def Like (i : Bool) (c r : Nat) : Prop := c = r ∨ (i = true ∧ fold c r = true)

def Item.Has (i : Bool) (r : Nat) : Item → Prop
  | .range lo hi => ∃ c, lo ≤ c ∧ c ≤ hi ∧ Like fold i c r
  | .group neg g => (∃ p ∈ g, ∃ c, p.1 ≤ c ∧ c ≤ p.2 ∧ Like fold i c r) ↔ neg = false

/-- Letters, digits and underscore of ASCII. -/
def Word (c : Nat) : Prop := (48 ≤ c ∧ c ≤ 57) ∨ (65 ≤ c ∧ c ≤ 90) ∨ c = 95 ∨ (97 ≤ c ∧ c ≤ 122)

/-- There is a word character before position `i`; at position `i`. -/
def WordBefore (w : List Nat) (i : Nat) : Prop := ∃ k c, i = k + 1 ∧ w[k]? = some c ∧ Word c
def WordAt (w : List Nat) (i : Nat) : Prop := ∃ c, w[i]? = some c ∧ Word c

def Place.Holds (w : List Nat) (i : Nat) : Place → Prop
  | .textBegin => i = 0
  | .textEnd => i = w.length
  | .lineBegin => i = 0 ∨ ∃ k, i = k + 1 ∧ w[k]? = some 10
  | .lineEnd => i = w.length ∨ w[i]? = some 10
  | .border => ¬ (WordBefore w i ↔ WordAt w i)
  | .noBorder => WordBefore w i ↔ WordAt w i

/-- `n` times one after the other. -/
def Times (R : Nat → Nat → Prop) : Nat → Nat → Nat → Prop
  | 0, i, j => i = j
  | n + 1, i, j => ∃ k, R i k ∧ Times R n k j

/-- The expression fits the part of the text `w` from position `i` up to position `j`. -/
def Fits (w : List Nat) : Re → Nat → Nat → Prop
  | .eps, i, j => i = j
  | .chr ic c, i, j => j = i + 1 ∧ ∃ r, w[i]? = some r ∧ Like fold ic c r
  | .any nl, i, j => j = i + 1 ∧ ∃ r, w[i]? = some r ∧ (nl = true ∨ r ≠ 10)
  | .cls ic neg l, i, j => j = i + 1 ∧ ∃ r, w[i]? = some r ∧ ((∃ x ∈ l, x.Has fold ic r) ↔ neg = false)
  | .at p, i, j => i = j ∧ p.Holds w i
  | .cat a b, i, j => ∃ k, Fits w a i k ∧ Fits w b k j
  | .alt a b, i, j => Fits w a i j ∨ Fits w b i j
  | .rep a lo hi, i, j => ∃ n, lo ≤ n ∧ (∀ m ∈ hi, n ≤ m) ∧ Times (Fits w a) n i j

/-- It fits some part of the text. -/
def Found (w : List Nat) (e : Re) : Prop := ∃ i j, i ≤ w.length ∧ Fits fold w e i j

end meaning

/-- How many copies nested repetitions make of what is innermost. -/
def Re.weight : Re → Nat
  | .cat a b => max a.weight b.weight
  | .alt a b => max a.weight b.weight
  | .rep _ _ (some 0) => 1
  | .rep a lo hi => max 1 (hi.getD lo) * a.weight
  | _ => 1

/-- The code points of a string; a byte that begins no character counts as U+FFFD. -/
inductive Runes : Bytes → List Nat → Prop
  | nil : Runes [] []
  | good (c : Nat) (s : Bytes) (w : List Nat) : Scalar c → Runes s w → Runes (utf8 c ++ s) (c :: w)
  | bad (b : UInt8) (s : Bytes) (w : List Nat) : (∀ c, Scalar c → ¬ utf8 c <+: b :: s) → Runes s w → Runes (b :: s) (0xFFFD :: w)

/-! ## How patterns are written -/

/-- What `(?…)` has switched on: `i` case does not matter, `m` `^` and `$` are of lines, `s` the dot fits newlines, `U` shortest first (of no consequence here). -/
structure Mode where
  i : Bool
  m : Bool
  s : Bool
  u : Bool

def Mode.set (f : Mode) (on : Bool) (c : Nat) : Mode :=
  if c = 105 then { f with i := on } else if c = 109 then { f with m := on } else if c = 115 then { f with s := on } else { f with u := on }

/-- `i`, `m`, `s`, `U`. -/
def Letters (l : List Nat) : Prop := ∀ c ∈ l, c = 105 ∨ c = 109 ∨ c = 115 ∨ c = 85

/-- The letters of `(?…)`: those to switch on, and after `-` those to switch off. -/
inductive Switch : Mode → List Nat → Mode → Prop
  | on (f : Mode) (l : List Nat) : Letters l → Switch f l (l.foldl (fun f c => f.set true c) f)
  | off (f : Mode) (l l' : List Nat) : Letters l → Letters l' → l' ≠ [] →
      Switch f (l ++ 45 :: l') (l'.foldl (fun f c => f.set false c) (l.foldl (fun f c => f.set true c) f))

def hexDigit (c : Nat) : Option Nat :=
  if 48 ≤ c ∧ c ≤ 57 then some (c - 48) else if 97 ≤ c ∧ c ≤ 102 then some (c - 87) else if 65 ≤ c ∧ c ≤ 70 then some (c - 55) else none

/-- The number written with hexadecimal digits, after `n`. -/
inductive Hex : Nat → List Nat → Nat → Prop
  | nil (n : Nat) : Hex n [] n
  | cons (n c v m : Nat) (l : List Nat) : hexDigit c = some v → Hex (n * 16 + v) l m → Hex n (c :: l) m

/-- `\.` and the like, `\n` and the like, `\x41`, `\x{1F600}`. -/
inductive Esc : List Nat → Nat → Prop
  | punct (c : Nat) : c < 128 → ¬ (Word c ∧ c ≠ 95) → Esc [92, c] c
  | named (x c : Nat) : (x, c) ∈ [(97, 7), (102, 12), (110, 10), (114, 13), (116, 9), (118, 11)] → Esc [92, x] c
  | hex2 (a b c : Nat) : Hex 0 [a, b] c → Esc [92, 120, a, b] c
  | hexn (l : List Nat) (c : Nat) : l ≠ [] → Hex 0 l c → c < 0x110000 → Esc ([92, 120, 123] ++ l ++ [125]) c

/-- `\d`, `\s`, `\w` and with capital letters all others. -/
inductive Group : List Nat → Item → Prop
  | digit : Group [92, 100] (.group false [(48, 57)])
  | noDigit : Group [92, 68] (.group true [(48, 57)])
  | space : Group [92, 115] (.group false [(9, 10), (12, 13), (32, 32)])
  | noSpace : Group [92, 83] (.group true [(9, 10), (12, 13), (32, 32)])
  | word : Group [92, 119] (.group false [(48, 57), (65, 90), (95, 95), (97, 122)])
  | noWord : Group [92, 87] (.group true [(48, 57), (65, 90), (95, 95), (97, 122)])

/-- A character in brackets: anything but `-`, `[`, `\`, `]`, `^`, which are escaped. -/
inductive ClassChar : List Nat → Nat → Prop
  | plain (c : Nat) : c ∉ [45, 91, 92, 93, 94] → ClassChar [c] c
  | esc (t : List Nat) (c : Nat) : Esc t c → ClassChar t c

inductive Items : List Nat → List Item → Prop
  | nil : Items [] []
  | one (t r : List Nat) (c : Nat) (l : List Item) : ClassChar t c → Items r l → Items (t ++ r) (.range c c :: l)
  | range (t u r : List Nat) (lo hi : Nat) (l : List Item) : ClassChar t lo → ClassChar u hi → lo ≤ hi → Items r l → Items (t ++ 45 :: (u ++ r)) (.range lo hi :: l)
  | group (t r : List Nat) (x : Item) (l : List Item) : Group t x → Items r l → Items (t ++ r) (x :: l)

/-- Within the brackets: `]` may come first and `-` last. -/
inductive ClassBody : List Nat → List Item → Prop
  | mk (first last : Bool) (t : List Nat) (l : List Item) : Items t l → (first = true ∨ t ≠ [] ∨ last = true) →
      ClassBody ((if first then [93] else []) ++ t ++ (if last then [45] else []))
        ((if first then [.range 93 93] else []) ++ l ++ (if last then [.range 45 45] else []))

/-- A number without leading zeros. -/
inductive Decimal : List Nat → Nat → Prop
  | zero : Decimal [48] 0
  | digit (d : Nat) : 1 ≤ d → d ≤ 9 → Decimal [48 + d] d
  | more (t : List Nat) (n d : Nat) : Decimal t n → 1 ≤ n → d ≤ 9 → Decimal (t ++ [48 + d]) (n * 10 + d)

/-- `*`, `+`, `?`, `{n}`, `{n,}`, `{n,m}`: how often. -/
inductive Often : List Nat → Nat → Option Nat → Prop
  | star : Often [42] 0 none
  | plus : Often [43] 1 none
  | quest : Often [63] 0 (some 1)
  | exact (t : List Nat) (n : Nat) : Decimal t n → n ≤ 1000 → Often (123 :: (t ++ [125])) n (some n)
  | least (t : List Nat) (n : Nat) : Decimal t n → n ≤ 1000 → Often (123 :: (t ++ [44, 125])) n none
  | between (t u : List Nat) (n m : Nat) : Decimal t n → Decimal u m → n ≤ m → m ≤ 1000 → Often (123 :: (t ++ 44 :: (u ++ [125]))) n (some m)

/-- The same with `?` behind it for "as few as possible", which is of no consequence here. -/
inductive Suffix : List Nat → Nat → Option Nat → Prop
  | most (t : List Nat) (lo : Nat) (hi : Option Nat) : Often t lo hi → Suffix t lo hi
  | least (t : List Nat) (lo : Nat) (hi : Option Nat) : Often t lo hi → Suffix (t ++ [63]) lo hi

mutual
/-- What a repetition applies to. -/
inductive Atom : Mode → List Nat → Re → Prop
  /-- Anything but `$ ( ) * + . ? [ \ ^ { |`. -/
  | plain (f : Mode) (c : Nat) : c ∉ [36, 40, 41, 42, 43, 46, 63, 91, 92, 94, 123, 124] → Atom f [c] (.chr f.i c)
  | esc (f : Mode) (t : List Nat) (c : Nat) : Esc t c → Atom f t (.chr f.i c)
  | dot (f : Mode) : Atom f [46] (.any f.s)
  | caret (f : Mode) : Atom f [94] (.at (if f.m then .lineBegin else .textBegin))
  | dollar (f : Mode) : Atom f [36] (.at (if f.m then .lineEnd else .textEnd))
  | textBegin (f : Mode) : Atom f [92, 65] (.at .textBegin)
  | textEnd (f : Mode) : Atom f [92, 122] (.at .textEnd)
  | border (f : Mode) : Atom f [92, 98] (.at .border)
  | noBorder (f : Mode) : Atom f [92, 66] (.at .noBorder)
  | group (f : Mode) (t : List Nat) (x : Item) : Group t x → Atom f t (.cls f.i false [x])
  | cls (f : Mode) (t : List Nat) (l : List Item) : ClassBody t l → Atom f (91 :: (t ++ [93])) (.cls f.i false l)
  | noCls (f : Mode) (t : List Nat) (l : List Item) : ClassBody t l → Atom f (91 :: 94 :: (t ++ [93])) (.cls f.i true l)
  | paren (f f' : Mode) (t : List Nat) (e : Re) : Alt f t e f' → Atom f (40 :: (t ++ [41])) e
  | parenWith (f f' f'' : Mode) (t u : List Nat) (e : Re) : Switch f u f' → Alt f' t e f'' → Atom f (40 :: 63 :: (u ++ 58 :: (t ++ [41]))) e

/-- One after the other, with `(?…)` in between, which holds up to the end of the group. -/
inductive Cat : Mode → List Nat → Re → Mode → Prop
  | nil (f : Mode) : Cat f [] .eps f
  | atom (f f' : Mode) (t u : List Nat) (e a : Re) : Cat f t e f' → Atom f' u a → Cat f (t ++ u) (.cat e a) f'
  | rep (f f' : Mode) (t u v : List Nat) (e a : Re) (lo : Nat) (hi : Option Nat) : Cat f t e f' → Atom f' u a → Suffix v lo hi → (Re.rep a lo hi).weight ≤ 1000 →
      Cat f (t ++ (u ++ v)) (.cat e (.rep a lo hi)) f'
  | switch (f f' f'' : Mode) (t u : List Nat) (e : Re) : Cat f t e f' → Switch f' u f'' → Cat f (t ++ 40 :: 63 :: (u ++ [41])) e f''

/-- Alternatives. -/
inductive Alt : Mode → List Nat → Re → Mode → Prop
  | one (f f' : Mode) (t : List Nat) (e : Re) : Cat f t e f' → Alt f t e f'
  | bar (f f' f'' : Mode) (t u : List Nat) (e d : Re) : Alt f t e f' → Cat f' u d f'' → Alt f (t ++ 124 :: u) (.alt e d) f''
end

/-- A pattern and what it means. -/
def Pattern (p : Bytes) (e : Re) : Prop := ∃ t f, p = t.flatMap utf8 ∧ (∀ c ∈ t, Scalar c) ∧ Alt ⟨false, false, false, false⟩ t e f

end Gofer.Spec.Regexp
