import Mathlib.Data.Rat.Floor

/-!
# The stopwatch of `dscompress`

`Stopwatch` (stopwatch.h, stopwatch.cc). Times are whole microseconds, as `microsec_clock` gives them; nothing is
assumed about the clock. The special values of Boost (`not_a_date_time`, infinities) and overflow of the 64 bit
count of microseconds are not modelled. The text functions return the numbers that they print with their units;
the formatting of a number by `operator<<` (six significant digits) and of a duration by `to_simple_string` is
not modelled, and the `long double` arithmetic of the text functions is exact here.
-/

namespace Dysco.Timer

/-- stopwatch.h:55-57. Before the first start `_startTime` is not a date; it is not used then. -/
structure Watch where
  running : Bool
  start : Int
  sum : Int
  deriving DecidableEq

/-- `Stopwatch()`, stopwatch.cc:27. -/
def Watch.new : Watch := ⟨false, 0, 0⟩

/-- `Stopwatch(bool)`, stopwatch.cc:29-32. -/
def Watch.newAt (start : Bool) (now : Int) : Watch := ⟨start, now, 0⟩

/-- `Start`, stopwatch.cc:36-41. -/
def Watch.start' (now : Int) (w : Watch) : Watch := if w.running then w else { w with start := now, running := true }

/-- `Pause`, stopwatch.cc:43-48. -/
def Watch.pause (now : Int) (w : Watch) : Watch :=
  if w.running then { w with sum := w.sum + (now - w.start), running := false } else w

/-- `Reset`, stopwatch.cc:50-53. -/
def Watch.reset (w : Watch) : Watch := { w with running := false, sum := 0 }

/-- The duration shown by `ToString`, stopwatch.cc:55-63. -/
def Watch.duration (now : Int) (w : Watch) : Int := if w.running then w.sum + (now - w.start) else w.sum

/-- `Seconds`, stopwatch.cc:153-161: whole milliseconds (division towards zero) over 1000. -/
def Watch.seconds (now : Int) (w : Watch) : ℚ := ((w.duration now).tdiv 1000 : ℚ) / 1000

/-- The calls that change a stopwatch. stopwatch.h:37-39. -/
inductive Op where
  | start
  | pause
  | reset
  deriving DecidableEq

/-- stopwatch.cc:36-53. -/
def Watch.apply (now : Int) (w : Watch) : Op → Watch
  | .start => w.start' now
  | .pause => w.pause now
  | .reset => w.reset

/-- Calls at given times, in order. Not in the code: calls of stopwatch.cc:36-53. -/
def Watch.run (w : Watch) : List (Int × Op) → Watch
  | [] => w
  | (now, op) :: l => (w.apply now op).run l

/-- `roundl`: to the nearest integer, halfway cases away from zero. stopwatch.cc:84-148. -/
def roundl (x : ℚ) : Int := if 0 ≤ x then ⌊x + 1 / 2⌋ else ⌈x - 1 / 2⌉

/-- The texts after a number: `" days"`, `"d"`, `"h"`, `" min"`, `"m"`, `"s"`, `"ms"`, `"µs"`, `"ns"`.
stopwatch.cc:87-149. -/
inductive Unit' where
  | days | d | h | min | m | s | ms | us | ns
  deriving DecidableEq

/-- Numbers with their units, as printed one after the other. stopwatch.cc:85-90. -/
abbrev Text := List (ℚ × Unit')

/-- `ToDaysString`, stopwatch.cc:83-91. -/
def toDays (s : ℚ) : Text :=
  let days : ℚ := roundl (s / (60 * 60)) / 24
  if 10 ≤ days then [((roundl days : ℚ), .days)] else [((⌊days⌋ : ℚ), .d), (days * 24, .h)]

/-- `ToHoursString`, stopwatch.cc:93-101. -/
def toHours (s : ℚ) : Text :=
  let hours : ℚ := roundl (s / 60) / 60
  if 10 ≤ hours then [((roundl hours : ℚ), .h)] else [((⌊hours⌋ : ℚ), .h), (hours * 60, .m)]

/-- `fmod` for a positive divisor: the sign is that of the dividend. stopwatch.cc:109. -/
def fmod (x y : ℚ) : ℚ := if 0 ≤ x then x - ⌊x / y⌋ * y else x - ⌈x / y⌉ * y

/-- `ToMinutesString`, stopwatch.cc:103-111. -/
def toMinutes (s : ℚ) : Text :=
  let mins : ℚ := roundl s / 60
  if 10 ≤ mins then [((roundl mins : ℚ), .min)] else [((⌊mins⌋ : ℚ), .m), (fmod (mins * 60) 60, .s)]

/-- `ToSecondsString`, stopwatch.cc:113-121, and `ToMilliSecondsString`, `ToMicroSecondsString`,
`ToNanoSecondsString`, 123-151: the same with another scale and unit. -/
def toScaled (scale : ℚ) (unit : Unit') (s : ℚ) : Text :=
  let x : ℚ := roundl (s * (scale * 10)) / 10
  if 10 ≤ x then [((roundl (s * scale) : ℚ), unit)] else [(x, unit)]

/-- `ToShortString`, stopwatch.cc:65-81. -/
def toShort (s : ℚ) : Text :=
  if 60 * 60 * 24 ≤ s then toDays s
  else if 60 * 60 ≤ s then toHours s
  else if 60 ≤ s then toMinutes s
  else if 1 ≤ s then toScaled 1 .s s
  else if 1 / 1000 ≤ s then toScaled 1000 .ms s
  else if 1 / 1000000 ≤ s then toScaled 1000000 .us s
  else toScaled 1000000000 .ns s

end Dysco.Timer
