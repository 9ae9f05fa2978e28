/-!
# Calendar, written dates, time zones
-/
namespace Gofer.Spec.Time

/-- Leap years of the Gregorian calendar. -/
def leap (y : Nat) : Bool := y % 4 == 0 && (y % 100 != 0 || y % 400 == 0)

/-- Days of month `m` (1 to 12) of year `y`. -/
def monthLen (y m : Nat) : Nat :=
  if m = 2 then (if leap y then 29 else 28)
  else if m = 4 ∨ m = 6 ∨ m = 9 ∨ m = 11 then 30 else 31

/-- Days from the beginning of year 0 to that of year `y`. -/
def daysBeforeYear : Nat → Nat
  | 0 => 0
  | y + 1 => daysBeforeYear y + (if leap y then 366 else 365)

/-- Days of the first `k` months of year `y`. -/
def daysOfMonths (y : Nat) : Nat → Nat
  | 0 => 0
  | k + 1 => daysOfMonths y k + monthLen y (k + 1)

/-- A date and time of day with nanoseconds. -/
structure Fields where
  year : Nat
  month : Nat
  day : Nat
  hour : Nat
  min : Nat
  sec : Nat
  nsec : Nat
deriving DecidableEq, Repr

/-- A date of the calendar from year 0 to 9999 and a time of day. -/
def Valid (f : Fields) : Prop :=
  f.year < 10000 ∧ 1 ≤ f.month ∧ f.month ≤ 12 ∧ 1 ≤ f.day ∧ f.day ≤ monthLen f.year f.month ∧
    f.hour < 24 ∧ f.min < 60 ∧ f.sec < 60 ∧ f.nsec < 1000000000

instance (f : Fields) : Decidable (Valid f) := inferInstanceAs (Decidable (_ ∧ _))

/-- Days from 1970-01-01. -/
def dayNumber (f : Fields) : Int :=
  (daysBeforeYear f.year + daysOfMonths f.year (f.month - 1) + (f.day - 1) : Nat) - (719528 : Int)

example : dayNumber ⟨1970, 1, 1, 0, 0, 0, 0⟩ = 0 := by decide +kernel

/-- Seconds from 1970-01-01 00:00:00 on a clock that shows `f` and is never put forward or back. -/
def clock (f : Fields) : Int := dayNumber f * 86400 + (f.hour * 3600 + f.min * 60 + f.sec : Nat)

/-- A decimal digit as a character. -/
def chr (n : Nat) : UInt8 := UInt8.ofNat (48 + n)

/-- A number below 100 in two digits. -/
def two (n : Nat) : List UInt8 := [chr (n / 10), chr (n % 10)]

/-- `2006-01-02 15:04:05`, without the nanoseconds. -/
def stamp (f : Fields) : List UInt8 :=
  two (f.year / 100) ++ two (f.year % 100) ++ [45] ++ two f.month ++ [45] ++ two f.day ++ [32] ++
    two f.hour ++ [58] ++ two f.min ++ [58] ++ two f.sec

/-- Decimal digits as a number. -/
def number (ds : List Nat) : Nat := ds.foldl (fun a d => a * 10 + d) 0

/-- Nanoseconds of a decimal fraction: nine digits, the rest dropped. -/
def nanos (ds : List Nat) : Nat := number ((ds ++ List.replicate 9 0).take 9)

/-- The ways to write `f`: the date as in `stamp`, one or more spaces, the hour in two digits or (below 10) in one, minutes and seconds in two,
and perhaps a fraction of the second after a point or a comma. -/
def Written (s : List UInt8) (f : Fields) : Prop :=
  Valid f ∧ ∃ (k : Nat) (hh frac : List UInt8),
    s = two (f.year / 100) ++ two (f.year % 100) ++ [45] ++ two f.month ++ [45] ++ two f.day ++ List.replicate (k + 1) 32 ++
      hh ++ [58] ++ two f.min ++ [58] ++ two f.sec ++ frac ∧
    (hh = two f.hour ∨ (f.hour < 10 ∧ hh = [chr f.hour])) ∧
    ((frac = [] ∧ f.nsec = 0) ∨
      ∃ (sep : UInt8) (ds : List Nat), (sep = 46 ∨ sep = 44) ∧ ds ≠ [] ∧ (∀ d ∈ ds, d < 10) ∧ frac = sep :: ds.map chr ∧ f.nsec = nanos ds)

/-- A time zone: the offset to UTC at first, and the moments (UTC) from which on there is another offset. -/
structure Zone where
  first : Int
  changes : List (Int × Int)
deriving DecidableEq, Repr

/-- Offset in force at a moment: that of the last change not later than it. -/
def offsetAt (z : Zone) (t : Int) : Int :=
  z.changes.foldl (fun o c => if c.1 ≤ t then c.2 else o) z.first

/-- At the moment `t` clocks in the zone show `c`. -/
def Shows (z : Zone) (t c : Int) : Prop := t + offsetAt z t = c

/-- Lexicographic order of byte strings. -/
def lexLt : List UInt8 → List UInt8 → Bool
  | [], [] => false
  | [], _ :: _ => true
  | _ :: _, [] => false
  | a :: as, b :: bs => a < b || (a == b && lexLt as bs)

end Gofer.Spec.Time
