import Verif.Model.Time
import Mathlib.Tactic.Linarith
import Mathlib.Tactic.FieldSimp
import Mathlib.Tactic.Ring
import Mathlib.Tactic.NormNum
import Mathlib.Data.Rat.Floor

/-! # Properties of time arithmetic (C59) -/

set_option linter.unusedSectionVars false

namespace Verif.Time

variable {F : Type*} [Field F] [LinearOrder F] [IsStrictOrderedRing F] [FloorRing F]

/-- **C59** floating-point clocks (idealised): both round trips are exact. -/
theorem time_float_roundtrip (t s d : F) : fminus (fplus t d) t = d ∧ fplus t (fminus s t) = s := by
  simp [fplus, fminus]

theorem trunc_abs_le (x : F) : |((trunc x : ℤ) : F)| ≤ |x| ∧ |((trunc x : ℤ) : F) - x| < 1 ∧ 0 ≤ (trunc x : F) * x := by
  unfold trunc
  split_ifs with h
  · have h1 := Int.floor_le x
    have h2 := Int.lt_floor_add_one x
    have h3 : (0 : F) ≤ (⌊x⌋ : F) := by exact_mod_cast Int.floor_nonneg.2 h
    refine ⟨?_, ?_, mul_nonneg h3 h⟩
    · rw [abs_of_nonneg h3, abs_of_nonneg h]; exact h1
    · rw [abs_lt]; constructor <;> linarith
  · have hx := not_le.1 h
    have h1 := Int.le_ceil x
    have h2 := Int.ceil_lt_add_one x
    have h3 : (⌈x⌉ : F) ≤ 0 := by exact_mod_cast Int.ceil_le.2 (by simpa using hx.le)
    refine ⟨?_, ?_, mul_nonneg_of_nonpos_of_nonpos h3 hx.le⟩
    · rw [abs_of_nonpos h3, abs_of_neg hx]; linarith
    · rw [abs_lt]; constructor <;> linarith

/-- **C59** tick clocks: adding `d` and subtracting again recovers `d` to less than one tick, never
overshooting (rounding is toward zero) and never flipping the sign. -/
theorem time_tick_roundtrip (per : F) (hper : 0 < per) (t : ℤ) (d : F) :
    |tminus per (tplus per t d) t - d| < per ∧ |tminus per (tplus per t d) t| ≤ |d| ∧
      0 ≤ tminus per (tplus per t d) t * d := by
  have he : tminus per (tplus per t d) t = (trunc (d / per) : F) * per := by
    simp [tminus, tplus]
  obtain ⟨h1, h2, h3⟩ := trunc_abs_le (d / per)
  have hd : d = d / per * per := by field_simp
  rw [he]
  refine ⟨?_, ?_, ?_⟩
  · have : (trunc (d / per) : F) * per - d = ((trunc (d / per) : F) - d / per) * per := by
      rw [sub_mul, ← hd]
    rw [this, abs_mul, abs_of_pos hper]
    calc _ < 1 * per := mul_lt_mul_of_pos_right h2 hper
      _ = per := one_mul _
  · conv_rhs => rw [hd]
    rw [abs_mul, abs_mul]
    exact mul_le_mul_of_nonneg_right h1 (abs_nonneg _)
  · have : (trunc (d / per) : F) * per * d = (trunc (d / per) : F) * (d / per) * (per * per) := by
      field_simp
    rw [this]
    exact mul_nonneg h3 (mul_pos hper hper).le

/-- **C59** tick clocks: stepping by the measured difference arrives exactly. -/
theorem time_tick_arrives (per : F) (hper : 0 < per) (t s : ℤ) : tplus per t (tminus per s t) = s := by
  have : tminus per s t / per = ((s - t : ℤ) : F) := by
    unfold tminus; field_simp
  unfold tplus
  rw [this]
  unfold trunc
  split_ifs <;> simp

theorem trunc_mono {x y : F} (h : x ≤ y) : trunc x ≤ trunc y := by
  unfold trunc
  split_ifs with h1 h2 h2
  · exact Int.floor_mono h
  · exact absurd (le_trans h1 h) h2
  · have h3 : ⌈x⌉ ≤ 0 := Int.ceil_le.2 (by simpa using (not_le.1 h1).le)
    exact le_trans h3 (Int.floor_nonneg.2 h2)
  · exact Int.ceil_mono h

/-- **C59** `plus` is monotone in both arguments, `minus` is strictly monotone, antisymmetric and additive
over intermediate times. -/
theorem time_tick_order (per : F) (hper : 0 < per) (t s r : ℤ) (d e : F) (hts : t ≤ s) (hde : d ≤ e) :
    tplus per t d ≤ tplus per s e ∧ (s < r → tminus per s t < tminus per r t) ∧
      tminus per t s = -tminus per s t ∧ tminus per r t = tminus per r s + tminus per s t := by
  refine ⟨?_, ?_, ?_, ?_⟩
  · exact add_le_add hts (trunc_mono (div_le_div_of_nonneg_right hde hper.le))
  · intro h
    unfold tminus
    refine mul_lt_mul_of_pos_right ?_ hper
    exact_mod_cast (by omega : s - t < r - t)
  · unfold tminus; push_cast; ring
  · unfold tminus; push_cast; ring

/-- Truncation is visible: on a whole-second clock two half-second steps do not move the clock, one
one-second step does. -/
theorem time_tick_steps_do_not_add :
    tplus (1 : ℚ) (tplus (1 : ℚ) 0 (1 / 2)) (1 / 2) = 0 ∧ tplus (1 : ℚ) 0 (1 / 2 + 1 / 2) = 1 := by
  have h1 : ⌊(1 / 2 : ℚ)⌋ = 0 := by rw [Int.floor_eq_iff]; norm_num
  constructor
  · norm_num [tplus, trunc] at *
  · norm_num [tplus, trunc]

/-! ### Non-vacuity: a millisecond clock and a negative duration -/
example : tplus (1 / 1000 : ℚ) 5 (-3 / 2000) = 4 ∧ tminus (1 / 1000 : ℚ) 4 5 = -1 / 1000 := by
  have h : ⌈(-3 / 2 : ℚ)⌉ = -1 := by rw [Int.ceil_eq_iff]; norm_num
  constructor
  · norm_num [tplus, trunc] at *
  · norm_num [tminus]

end Verif.Time
