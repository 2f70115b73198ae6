import Verif.Model.Time

/-!
# Time arithmetic as it runs (include/smooth/feedback/time.hpp)

`Model/Time.lean` once more, with the roundings of `double` and with tick counts of 64 bits. A tick is `1 / D` seconds for a whole number `D` that `double` represents (`std::nano`, `std::micro`,
`std::milli`, `std::ratio<1>`). `none` stands for undefined behaviour: the conversion of a number outside the range of `int64_t`, or overflow of its addition or subtraction. Infinite and
not-a-number durations are not modelled. `rclcpp` throws where `std::chrono` overflows.
-/

namespace Verif.Time

variable {F : Type*} [Field F] [LinearOrder F] [FloorRing F]

/-- A 64-bit count, if it is one. -/
def toI64 (k : ℤ) : Option ℤ := if -2 ^ 63 ≤ k ∧ k < 2 ^ 63 then some k else none

/-- `std::chrono::duration_cast<Duration>(std::chrono::duration<double>(d))` (time.hpp:60, 81): the product with the number of ticks in a second, in `double`, converted to an integer. -/
def toTicks (fl : F → F) (D : ℕ) (d : F) : Option ℤ := toI64 (trunc (fl (d * D)))

/-- `time_trait<time_point>::plus` (time.hpp:58-61), `time_trait<duration>::plus` (time.hpp:79-82). -/
def plusR (fl : F → F) (D : ℕ) (t : ℤ) (d : F) : Option ℤ := (toTicks fl D d).bind fun k => toI64 (t + k)

/-- `time_trait<time_point>::minus` (time.hpp:63-66), `time_trait<duration>::minus` (time.hpp:84-87): the difference in ticks, converted to `double`, over the number of ticks in a second. -/
def minusR (fl : F → F) (D : ℕ) (t2 t1 : ℤ) : Option F := (toI64 (t2 - t1)).map fun k : ℤ => fl (fl (k : F) / D)

/-- `plus(t, minus(s, t))`: a step by the measured difference. -/
def stepR (fl : F → F) (D : ℕ) (t s : ℤ) : Option ℤ := (minusR fl D s t).bind (plusR fl D t)

/-- `time_trait<double>::plus` (time.hpp:43). -/
def fplusR (fl : F → F) (t d : F) : F := fl (t + d)

/-- `time_trait<double>::minus` (time.hpp:45). -/
def fminusR (fl : F → F) (t2 t1 : F) : F := fl (t2 - t1)

end Verif.Time
