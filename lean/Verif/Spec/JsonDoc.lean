import Verif.Spec.Json
/-
JSON documents (RFC 8259) and the values they stand for, with the liberties that Go takes: bytes that begin no
character and surrogates without partner stand for U+FFFD, and null stands for the zero value of every type.
-/
namespace Gofer.Spec.Json

/-- A hexadecimal digit and its value. -/
def Hex (b : UInt8) (n : Nat) : Prop :=
  (48 ≤ b.toNat ∧ b.toNat ≤ 57 ∧ n = b.toNat - 48) ∨ (97 ≤ b.toNat ∧ b.toNat ≤ 102 ∧ n = b.toNat - 87) ∨
    (65 ≤ b.toNat ∧ b.toNat ≤ 70 ∧ n = b.toNat - 55)

/-- Four hexadecimal digits and their value. -/
inductive Hex4 : Bytes → Nat → Prop
  | mk (h1 h2 h3 h4 : UInt8) (n1 n2 n3 n4 : Nat) : Hex h1 n1 → Hex h2 n2 → Hex h3 n3 → Hex h4 n4 →
      Hex4 [h1, h2, h3, h4] (n1 * 4096 + n2 * 256 + n3 * 16 + n4)

/-- The escapes of one letter: `\"`, `\\`, `\/`, `\b`, `\f`, `\n`, `\r`, `\t`. -/
def letters : List (UInt8 × UInt8) := [(34, 34), (92, 92), (47, 47), (98, 8), (102, 12), (110, 10), (114, 13), (116, 9)]

/-- A surrogate. -/
def Surrogate (n : Nat) : Prop := 0xD800 ≤ n ∧ n < 0xE000

/-- `StrDoc q s`: the text `q` between quotes stands for the string `s`. -/
inductive StrDoc : Bytes → Bytes → Prop
  | nil : StrDoc [] []
  /-- a character as it is -/
  | raw (c : Nat) (q s : Bytes) : Scalar c → 0x20 ≤ c → c ≠ 34 → c ≠ 92 → StrDoc q s → StrDoc (utf8 c ++ q) (utf8 c ++ s)
  /-- an escape of one letter -/
  | letter (e b : UInt8) (q s : Bytes) : (e, b) ∈ letters → StrDoc q s → StrDoc (92 :: e :: q) (b :: s)
  /-- the number of the character -/
  | u (h : Bytes) (c : Nat) (q s : Bytes) : Hex4 h c → ¬ Surrogate c → StrDoc q s → StrDoc (92 :: 117 :: (h ++ q)) (utf8 c ++ s)
  /-- a pair of surrogates -/
  | pair (h l : Bytes) (c : Nat) (q s : Bytes) : 0x10000 ≤ c → c < 0x110000 → Hex4 h (0xD800 + (c - 0x10000) / 1024) →
      Hex4 l (0xDC00 + (c - 0x10000) % 1024) → StrDoc q s →
      StrDoc (92 :: 117 :: (h ++ 92 :: 117 :: (l ++ q))) (utf8 c ++ s)
  /-- a surrogate that is not the first of a pair -/
  | lone (h : Bytes) (n : Nat) (q s : Bytes) : Hex4 h n → Surrogate n →
      (∀ l m, n < 0xDC00 → Hex4 l m → 0xDC00 ≤ m → m < 0xE000 → ¬ 92 :: 117 :: l <+: q) → StrDoc q s →
      StrDoc (92 :: 117 :: (h ++ q)) (0xEF :: 0xBF :: 0xBD :: s)
  /-- a byte that begins no character -/
  | bad (b : UInt8) (q s : Bytes) : (∀ c, Scalar c → ¬ utf8 c <+: b :: q) → StrDoc q s →
      StrDoc (b :: q) (0xEF :: 0xBF :: 0xBD :: s)

/-- White space. -/
def Space (w : Bytes) : Prop := ∀ b ∈ w, b = 32 ∨ b = 9 ∨ b = 13 ∨ b = 10

/-- Decimal digits, the first not 0 unless it is the only one; and their number. -/
def NatDoc (ds : Bytes) (n : Nat) : Prop :=
  ds ≠ [] ∧ (∀ b ∈ ds, 48 ≤ b.toNat ∧ b.toNat ≤ 57) ∧ (ds.head? = some 48 → ds = [48]) ∧
    n = ds.foldl (fun n b => n * 10 + (b.toNat - 48)) 0

/-- Things with commas between them and white space around them. -/
inductive Items {A : Type} (P : A → Bytes → Prop) : List A → Bytes → Prop
  | none (w : Bytes) : Space w → Items P [] w
  | one (w w' d : Bytes) (x : A) : Space w → Space w' → P x d → Items P [x] (w ++ (d ++ w'))
  | more (w w' d r : Bytes) (x y : A) (l : List A) : Space w → Space w' → P x d → Items P (y :: l) r →
      Items P (x :: y :: l) (w ++ (d ++ (w' ++ 44 :: r)))

/-- A key in quotes, a colon and the value. -/
def Member {A : Type} (P : A → Bytes → Prop) (e : Bytes × A) (d : Bytes) : Prop :=
  ∃ q w w' d', StrDoc q e.1 ∧ Space w ∧ Space w' ∧ P e.2 d' ∧ d = 34 :: (q ++ 34 :: (w ++ 58 :: (w' ++ d')))

/-- `Doc t v d`: the document `d` stands for the value `v` of type `t`. -/
def Doc : (t : Ty) → Val t → Bytes → Prop
  | .bool, b, d =>
    (b = true ∧ d = [116, 114, 117, 101]) ∨ (b = false ∧ d = [102, 97, 108, 115, 101]) ∨
      (b = false ∧ d = [110, 117, 108, 108])
  | .int, i, d =>
    ((-(2 : Int) ^ 63 ≤ i ∧ i < 2 ^ 63) ∧
        ∃ ds n, NatDoc ds n ∧ ((d = ds ∧ i = (n : Int)) ∨ (d = 45 :: ds ∧ i = -(n : Int)))) ∨
      (i = 0 ∧ d = [110, 117, 108, 108])
  | .str, s, d => (∃ q, StrDoc q s ∧ d = 34 :: (q ++ [34])) ∨ (s = [] ∧ d = [110, 117, 108, 108])
  | .list t, v, d =>
    (∃ l r, v = some l ∧ Items (Doc t) l r ∧ d = 91 :: (r ++ [93])) ∨ (v = none ∧ d = [110, 117, 108, 108])
  | .map t, v, d =>
    (∃ es r, v = some (filled es) ∧ Items (Member (Doc t)) es r ∧ d = 123 :: (r ++ [125])) ∨
      (v = none ∧ d = [110, 117, 108, 108])

end Gofer.Spec.Json
