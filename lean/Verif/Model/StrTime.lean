import Verif.Spec.Time
/-!
# Model of `StrToTimeFormat` (`util/encode.go:114-118`)

The library `time` (Go 1.23) is modelled as far as it is used: `ParseInLocation` with the layout `2006-01-02 15:04:05` and `Date`. A time zone
is the `Zone` of `Spec/Time.lean` (first offset and changes), `none` if `LoadLocation` fails (its error is dropped, the location is nil). Errors are one value.
-/
namespace Gofer.StrTime
open Gofer.Spec.Time (Fields Zone)

abbrev Str := List UInt8

/-- Outcome: an error, a panic, or a time as Unix seconds and nanoseconds. -/
inductive Res where
  | err
  | panic
  | ok (sec : Int) (nsec : Nat)
deriving DecidableEq, Repr

/-- `isDigit` (library, time/format.go). -/
def isDigit (b : UInt8) : Bool := 48 ≤ b && b ≤ 57

/-- `b - '0'`. -/
def dig (b : UInt8) : Nat := b.toNat - 48

/-- `getnum` (library, time/format.go): one or two digits; two if `fixed`. -/
def getnum (fixed : Bool) : Str → Option (Nat × Str)
  | [] => none
  | a :: r =>
    if !isDigit a then none
    else
      match r with
      | [] => if fixed then none else some (dig a, [])
      | b :: r' => if isDigit b then some (dig a * 10 + dig b, r') else if fixed then none else some (dig a, b :: r')

/-- `skip` (library) for a prefix of one character that is not a space. -/
def skipChar (c : UInt8) : Str → Option Str
  | [] => none
  | a :: r => if a = c then some r else none

/-- `cutspace` (library). -/
def cutspace : Str → Str
  | [] => []
  | a :: r => if a = 32 then cutspace r else a :: r

/-- `skip` (library) for the prefix " ". -/
def skipSpace : Str → Option Str
  | [] => some []
  | a :: r => if a = 32 then some (cutspace r) else none

/-- The case `stdLongYear` of `parse` (library): four characters that `atoi` takes, the first a digit. -/
def getYear : Str → Option (Nat × Str)
  | a :: b :: c :: d :: r =>
    if isDigit a && isDigit b && isDigit c && isDigit d then some (((dig a * 10 + dig b) * 10 + dig c) * 10 + dig d, r) else none
  | _ => none

/-- Leading digits and the rest. -/
def digits : Str → List Nat × Str
  | [] => ([], [])
  | a :: r => if isDigit a then (dig a :: (digits r).1, (digits r).2) else ([], a :: r)

/-- `parseNanoseconds` (library) on the digits after the point: at most nine, scaled up. -/
def nanoseconds (ds : List Nat) : Nat :=
  let ds := ds.take 9
  (ds.foldl (fun a d => a * 10 + d) 0) * 10 ^ (9 - ds.length)

/-- The special case of `stdZeroSecond` in `parse` (library): a fraction that the layout does not have. -/
def getFrac : Str → Nat × Str
  | [] => (0, [])
  | a :: r =>
    if (a = 46 ∨ a = 44) ∧ (digits r).1 ≠ [] then (nanoseconds (digits r).1, (digits r).2) else (0, a :: r)

/-- `isLeap` (library). -/
def isLeap (y : Nat) : Bool := y % 4 == 0 && (y % 100 != 0 || y % 400 == 0)

/-- `daysBefore` (library): days of a common year before month `m + 1`. -/
def daysBefore : List Nat := [0, 31, 59, 90, 120, 151, 181, 212, 243, 273, 304, 334, 365]

/-- `daysIn` (library). -/
def daysIn (m y : Nat) : Nat :=
  if m = 2 ∧ isLeap y then 29 else daysBefore.getD m 0 - daysBefore.getD (m - 1) 0

/-- A value if a condition holds. -/
def guard (c : Bool) : Option Unit := if c then some () else none

/-- `parse` (library) with the layout `2006-01-02 15:04:05`. -/
def parse (s : Str) : Option Fields := do
  let (year, s) ← getYear s
  let s ← skipChar 45 s
  let (month, s) ← getnum true s
  guard (1 ≤ month && month ≤ 12)
  let s ← skipChar 45 s
  let (day, s) ← getnum true s
  let s ← skipSpace s
  let (hour, s) ← getnum false s
  guard (hour < 24)
  let s ← skipChar 58 s
  let (min, s) ← getnum true s
  guard (min < 60)
  let s ← skipChar 58 s
  let (sec, s) ← getnum true s
  guard (sec < 60)
  let (nsec, s) := getFrac s
  guard s.isEmpty
  guard (1 ≤ day && day ≤ daysIn month year)
  return ⟨year, month, day, hour, min, sec, nsec⟩

/-- `daysSinceEpoch` (library, Go 1.23): days since the year -292277022399. -/
def daysSinceEpoch (year : Nat) : Nat :=
  let y := year + 292277022399
  let n4 := y / 400
  let y := y - 400 * n4
  let n1 := y / 100
  let y := y - 100 * n1
  let n := y / 4
  let y := y - 4 * n
  146097 * n4 + 36524 * n1 + 1461 * n + 365 * y

/-- `absoluteToInternal + internalToUnix` (library) in seconds: -292277022400 * 365.2425 days and 1969 years. -/
def absToUnix : Int := (-(292277022400 * 3652425 / 10000) - (1969 * 365 + 1969 / 4 - 1969 / 100 + 1969 / 400)) * 86400

/-- The first half of `Date` (library): seconds as if the fields were UTC. -/
def asUTC (f : Fields) : Int :=
  let d := daysSinceEpoch f.year + daysBefore.getD (f.month - 1) 0
  let d := if isLeap f.year && 3 ≤ f.month then d + 1 else d
  let d := d + (f.day - 1)
  ((d * 86400 + (f.hour * 3600 + f.min * 60 + f.sec) : Nat) : Int) + absToUnix

/-- `Location.lookup` (library): the offset in force at `sec` and the interval it is in force in, `none` for no end. `o` and `b` are
the offset and the beginning of what is in force before the changes `tx`. The extension rule of a zone is not needed: that of Asia/Shanghai
(`CST-8`) repeats the last offset. -/
def lookup (o : Int) (b : Option Int) : List (Int × Int) → Int → Int × Option Int × Option Int
  | [], _ => (o, b, none)
  | (w, o') :: tx, sec => if sec < w then (o, b, some w) else lookup o' (some w) tx sec

/-- The second half of `Date` (library): from the fields as UTC to the moment. -/
def toMoment (z : Zone) (unix : Int) : Int :=
  match lookup z.first none z.changes unix with
  | (offset, start, fin) =>
    if offset = 0 then unix
    else
      let utc := unix - offset
      if start.any (fun s => utc < s) || fin.any (fun e => e ≤ utc) then unix - (lookup z.first none z.changes utc).1
      else unix - offset

/-- `StrToTimeFormat` (util/encode.go:114-118). `Date` panics for a nil location. -/
def strToTimeFormat (zone : Option Zone) (s : Str) : Res :=
  match parse s with
  | none => .err
  | some f =>
    match zone with
    | none => .panic
    | some z => .ok (toMoment z (asUTC f)) f.nsec

/-- Asia/Shanghai in the time zone database (data of 2026; LMT, CST and CDT). -/
def shanghai : Zone := ⟨29143,
  [(-2177481943, 28800), (-1600675200, 32400), (-1585904400, 28800), (-933667200, 32400), (-922093200, 28800), (-908870400, 32400),
   (-888829200, 28800), (-881049600, 32400), (-767869200, 28800), (-745833600, 32400), (-733827600, 28800), (-716889600, 32400),
   (-699613200, 28800), (-683884800, 32400), (-670669200, 28800), (-652348800, 32400), (-650019600, 28800), (515527200, 32400),
   (527014800, 28800), (545162400, 32400), (558464400, 28800), (577216800, 32400), (589914000, 28800), (608666400, 32400),
   (621968400, 28800), (640116000, 32400), (653418000, 28800), (671565600, 32400), (684867600, 28800)]⟩

/-- "2023-05-06 07:08:09" -/
example : strToTimeFormat (some shanghai) [50, 48, 50, 51, 45, 48, 53, 45, 48, 54, 32, 48, 55, 58, 48, 56, 58, 48, 57] = .ok 1683328089 0 := by
  decide +kernel

end Gofer.StrTime
