import Mathlib.Algebra.Order.Floor.Ring
import Mathlib.Algebra.Order.Field.Basic

/-!
# Model of `time.hpp` and `compat/ros.hpp`

Integer overflow of the tick count and floating-point rounding are not modelled here; `Model/TimeRound.lean` models them.
-/

namespace Verif.Time

variable {F : Type*} [Field F] [LinearOrder F] [IsStrictOrderedRing F] [FloorRing F]

/-- `time_trait<floating>::plus`, time.hpp:43. -/
def fplus (t d : F) : F := t + d

/-- `time_trait<floating>::minus`, time.hpp:45. -/
def fminus (t2 t1 : F) : F := t2 - t1

/-- `std::chrono::duration_cast` to an integral tick count, and the `double`→`int64_t` conversion in
`rclcpp::Duration::from_seconds`: truncation toward zero. -/
def trunc (x : F) : ℤ := if 0 ≤ x then ⌊x⌋ else ⌈x⌉

/-- `time_trait<time_point>::plus` time.hpp:58-61, `time_trait<duration>::plus` time.hpp:79-82 (integral `Rep`),
`time_trait<rclcpp::Time>::plus` ros.hpp:21.  `t` is a tick count, `per` the tick period in seconds. -/
def tplus (per : F) (t : ℤ) (d : F) : ℤ := t + trunc (d / per)

/-- `time_trait<time_point>::minus` time.hpp:63-66, `time_trait<duration>::minus` time.hpp:84-87,
`time_trait<rclcpp::Time>::minus` ros.hpp:24-27. -/
def tminus (per : F) (t2 t1 : ℤ) : F := ((t2 - t1 : ℤ) : F) * per

end Verif.Time
