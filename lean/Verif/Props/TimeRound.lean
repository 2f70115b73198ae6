import Verif.Model.TimeRound
import Verif.Spec.TimeRound
import Verif.Props.Time
import Verif.Proofs.QPFloat
import Mathlib.Tactic.Positivity
import Mathlib.Tactic.GCongr

/-! # Time arithmetic in floating point (C137) -/

namespace Verif.Time

open Verif.TimeSpec
open Verif.QP (flBits flBits_err flBits_mono)

variable {F : Type*} [Field F] [LinearOrder F] [IsStrictOrderedRing F] [FloorRing F]

theorem toI64_some {k : ℤ} (h : |k| < 2 ^ 63) : toI64 k = some k := by
  rw [abs_lt] at h
  exact if_pos ⟨h.1.le, h.2⟩

theorem toI64_none {k : ℤ} (h : 2 ^ 63 < |k|) : toI64 k = none := by
  refine if_neg fun h2 => ?_
  have := abs_le.2 ⟨h2.1, h2.2.le⟩
  omega

theorem toI64_eq {k j : ℤ} (h : toI64 k = some j) : j = k := by
  unfold toI64 at h
  split_ifs at h
  exact (Option.some.inj h).symm

theorem relErr_abs {fl : F → F} {u : F} (h : RelErr fl u) (x : F) : |fl x| ≤ (1 + u) * |x| := by
  have := h x
  have := abs_sub_abs_le_abs_sub (fl x) x
  linarith

theorem trunc_lt_abs {x : F} {n : ℤ} (h : |x| < n) : |trunc x| < n := by
  have := (trunc_abs_le x).1
  exact_mod_cast this.trans_lt h

/-- **C137** `plus` is defined, and right to one tick and one rounding, while the duration and the time fit in 64 bits. -/
theorem time_plus_rounded {fl : F → F} {u : F} (hfl : RelErr fl u) (D : ℕ) (t : ℤ) (d : F) (h : |(t : F)| + (1 + u) * |d * D| < 2 ^ 63) :
    ∃ s, plusR fl D t d = some s ∧ |(s : F) - (t + d * D)| < 1 + u * |d * D| := by
  have h1 : |fl (d * D)| < ((2 ^ 63 : ℤ) : F) := by
    push_cast
    have := relErr_abs hfl (d * D)
    have := abs_nonneg (t : F)
    linarith
  have h2 := trunc_lt_abs h1
  have h3 : |t + trunc (fl (d * D))| < 2 ^ 63 := by
    have h4 : |((t + trunc (fl (d * D)) : ℤ) : F)| < ((2 ^ 63 : ℤ) : F) := by
      push_cast
      have := (trunc_abs_le (fl (d * D))).1
      have := relErr_abs hfl (d * D)
      have := abs_add_le (t : F) (trunc (fl (d * D)) : F)
      linarith
    exact_mod_cast h4
  refine ⟨t + trunc (fl (d * D)), ?_, ?_⟩
  · unfold plusR toTicks
    rw [toI64_some h2, Option.bind_some, toI64_some h3]
  · have e : ((t + trunc (fl (d * D)) : ℤ) : F) - (t + d * D) = (trunc (fl (d * D)) - fl (d * D)) + (fl (d * D) - d * D) := by push_cast; ring
    rw [e]
    have := abs_add_le ((trunc (fl (d * D)) : F) - fl (d * D)) (fl (d * D) - d * D)
    have := (trunc_abs_le (fl (d * D))).2.1
    have := hfl (d * D)
    linarith

/-- **C137** A duration that does not fit is undefined behaviour, from every time. -/
theorem time_plus_undefined {fl : F → F} {u : F} (hfl : RelErr fl u) (D : ℕ) (t : ℤ) (d : F) (h : 2 ^ 63 + 1 ≤ (1 - u) * |d * D|) : plusR fl D t d = none := by
  have h1 : 2 ^ 63 < |trunc (fl (d * D))| := by
    have h2 : ((2 ^ 63 : ℤ) : F) < |((trunc (fl (d * D)) : ℤ) : F)| := by
      push_cast
      have a := (trunc_abs_le (fl (d * D))).2.1
      have b := hfl (d * D)
      have c := abs_sub_abs_le_abs_sub (d * D) (fl (d * D))
      have e := abs_sub_abs_le_abs_sub (fl (d * D)) (trunc (fl (d * D)) : F)
      rw [abs_sub_comm] at c e
      linarith
    exact_mod_cast h2
  unfold plusR toTicks
  rw [toI64_none h1, Option.bind_none]

/-- **C137** So is a time that does not fit. -/
theorem time_plus_overflow {fl : F → F} {u : F} (hfl : RelErr fl u) (D : ℕ) (t : ℤ) (d : F) (h : 2 ^ 63 + 1 + u * |d * D| ≤ |t + d * D|) : plusR fl D t d = none := by
  unfold plusR
  cases hk : toTicks fl D d with
  | none => rfl
  | some k =>
    have ek := toI64_eq hk
    rw [Option.bind_some]
    refine toI64_none ?_
    have h2 : ((2 ^ 63 : ℤ) : F) < |((t + k : ℤ) : F)| := by
      push_cast
      have a := (trunc_abs_le (fl (d * D))).2.1
      have b := hfl (d * D)
      rw [← ek] at a
      have c := abs_add_le ((k : F) - fl (d * D)) (fl (d * D) - d * D)
      rw [sub_add_sub_cancel] at c
      have e := abs_sub_abs_le_abs_sub ((t : F) + d * D) (t + k : F)
      rw [abs_sub_comm, show (t : F) + k - (t + d * D) = k - d * D by ring] at e
      linarith
    exact_mod_cast h2

/-- **C137** `minus` is right to two roundings when the difference fits in 64 bits. -/
theorem time_minus_rounded {fl : F → F} {u : F} (hu : 0 ≤ u) (hfl : RelErr fl u) {D : ℕ} (hD : 0 < D) (t2 t1 : ℤ) (h : |t2 - t1| < 2 ^ 63) :
    ∃ v, minusR fl D t2 t1 = some v ∧ |v - ((t2 : F) - t1) / D| ≤ ((1 + u) ^ 2 - 1) * |((t2 : F) - t1) / D| := by
  refine ⟨fl (fl ((t2 - t1 : ℤ) : F) / D), ?_, ?_⟩
  · unfold minusR
    rw [toI64_some h, Option.map_some]
  · have hD' : (0 : F) < D := by exact_mod_cast hD
    push_cast
    set x : F := (t2 : F) - t1
    have h1 := hfl x
    have h2 := hfl (fl x / D)
    have h3 : |fl x / D - x / D| ≤ u * |x / D| := by
      rw [← sub_div, abs_div, abs_div, ← mul_div_assoc]
      exact div_le_div_of_nonneg_right h1 (abs_nonneg _)
    have h4 : |fl x / D| ≤ (1 + u) * |x / D| := by
      have := abs_sub_abs_le_abs_sub (fl x / D) (x / D)
      linarith
    have h5 := abs_add_le (fl (fl x / D) - fl x / D) (fl x / D - x / D)
    rw [sub_add_sub_cancel] at h5
    have h6 := mul_le_mul_of_nonneg_left h4 hu
    nlinarith

/-- **C137** The difference of two valid times can be undefined. -/
theorem time_minus_undefined (fl : F → F) (D : ℕ) (t2 t1 : ℤ) (h : 2 ^ 63 < |t2 - t1|) : minusR fl D t2 t1 = none := by
  unfold minusR
  rw [toI64_none h, Option.map_none]

theorem trunc_oneShort {x : F} {n : ℤ} (h : |x - n| < 1) : OneShort n (trunc x) := by
  rw [abs_lt] at h
  unfold OneShort trunc
  split_ifs with h0
  · have a := Int.floor_le x
    have b := Int.lt_floor_add_one x
    have c : ⌊x⌋ < n + 1 := by
      have : ((⌊x⌋ : ℤ) : F) < ((n + 1 : ℤ) : F) := by push_cast; linarith
      exact_mod_cast this
    have d : n - 1 < ⌊x⌋ + 1 := by
      have : ((n - 1 : ℤ) : F) < ((⌊x⌋ + 1 : ℤ) : F) := by push_cast; linarith
      exact_mod_cast this
    have e : 0 ≤ ⌊x⌋ := Int.floor_nonneg.2 h0
    omega
  · have a := Int.le_ceil x
    have b := Int.ceil_lt_add_one x
    have c : n - 1 < ⌈x⌉ := by
      have : ((n - 1 : ℤ) : F) < ((⌈x⌉ : ℤ) : F) := by push_cast; linarith
      exact_mod_cast this
    have d : ⌈x⌉ - 1 < n + 1 := by
      have : ((⌈x⌉ - 1 : ℤ) : F) < ((n + 1 : ℤ) : F) := by push_cast; linarith
      exact_mod_cast this
    have e : ⌈x⌉ ≤ 0 := Int.ceil_le.2 (by simpa using (not_le.1 h0).le)
    omega

/-- **C137**, partial: stepping by the measured difference arrives, or stops one tick short of the target; it never passes it. Missing: it does not always arrive (`time_step_short`), unlike in
exact arithmetic (`time_tick_arrives`, C59). -/
theorem time_step_partial {fl : F → F} {u : F} (hu : 0 ≤ u) (hfl : RelErr fl u) {D : ℕ} (hD : 0 < D) (t s : ℤ) (ht : |t| ≤ 2 ^ 62) (hn : ((1 + u) ^ 3 - 1) * |((s - t : ℤ) : F)| < 1)
    (hs : |s - t| < 2 ^ 62) : ∃ k, stepR fl D t s = some (t + k) ∧ OneShort (s - t) k := by
  have hD' : (0 : F) < D := by exact_mod_cast hD
  obtain ⟨v, hv, hve⟩ := time_minus_rounded hu hfl hD s t (by omega)
  have hx : |fl (v * D) - ((s - t : ℤ) : F)| < 1 := by
    refine lt_of_le_of_lt ?_ hn
    push_cast
    set x : F := (s : F) - t
    have h1 : |v * D - x| ≤ ((1 + u) ^ 2 - 1) * |x| := by
      have e : v * D - x = (v - x / D) * D := by field_simp
      have e2 : |x / D| * D = |x| := by rw [abs_div, abs_of_pos hD']; field_simp
      rw [e, abs_mul, abs_of_pos hD', ← e2, ← mul_assoc]
      exact mul_le_mul_of_nonneg_right hve hD'.le
    have h2 := hfl (v * D)
    have h3 := abs_sub_abs_le_abs_sub (v * D) x
    have h4 := abs_add_le (fl (v * D) - v * D) (v * D - x)
    rw [sub_add_sub_cancel] at h4
    have h5 : u * |v * D| ≤ u * ((1 + u) ^ 2 * |x|) := mul_le_mul_of_nonneg_left (by linarith) hu
    nlinarith
  have ho := trunc_oneShort hx
  refine ⟨trunc (fl (v * D)), ?_, ho⟩
  have hk : |trunc (fl (v * D))| < 2 ^ 62 := by
    unfold OneShort at ho
    rw [abs_lt] at hs ⊢
    omega
  unfold stepR plusR toTicks
  rw [hv, Option.bind_some, toI64_some (by omega), Option.bind_some, toI64_some]
  have := abs_add_le t (trunc (fl (v * D)))
  omega

/-- **C137** In `double`: while the times are less than 2^51 ticks apart (26 days in nanoseconds). -/
theorem time_step_double_partial {D : ℕ} (hD : 0 < D) (t s : ℤ) (ht : |t| ≤ 2 ^ 62) (hs : |s - t| ≤ 2 ^ 51) :
    ∃ k, stepR (flBits 52) D t s = some (t + k) ∧ OneShort (s - t) k := by
  refine time_step_partial (u := 1 / 2 ^ 53) (by positivity) (flBits_err 52) hD t s ht ?_ (by omega)
  have h : |((s - t : ℤ) : ℚ)| ≤ ((2 ^ 51 : ℤ) : ℚ) := by exact_mod_cast hs
  calc _ ≤ ((1 + 1 / 2 ^ 53) ^ 3 - 1) * ((2 ^ 51 : ℤ) : ℚ) := mul_le_mul_of_nonneg_left h (by norm_num)
    _ < 1 := by norm_num

/-- **C137** The clock never turns back: `plus` keeps the order of times and of durations, in every monotone rounding. -/
theorem time_plus_mono {fl : F → F} (hm : Monotone fl) (D : ℕ) {t s : ℤ} {d e : F} (hts : t ≤ s) (hde : d ≤ e) {p q : ℤ} (hp : plusR fl D t d = some p)
    (hq : plusR fl D s e = some q) : p ≤ q := by
  have key : ∀ {t : ℤ} {d : F} {p : ℤ}, plusR fl D t d = some p → p = t + trunc (fl (d * D)) := by
    intro t d p h
    obtain ⟨k, hk, h2⟩ := Option.bind_eq_some_iff.1 h
    rw [toI64_eq h2, toI64_eq hk]
  rw [key hp, key hq]
  exact add_le_add hts (trunc_mono (hm (mul_le_mul_of_nonneg_right hde (Nat.cast_nonneg D))))

/-- **C137** A clock in `double` recovers a duration up to roundings that grow with the time. -/
theorem time_double_rounded {fl : F → F} {u : F} (hu : 0 ≤ u) (hfl : RelErr fl u) (t d : F) :
    |fminusR fl (fplusR fl t d) t - d| ≤ (1 + u) * (u * |t + d|) + u * |d| := by
  unfold fminusR fplusR
  have h1 := hfl (t + d)
  have h2 := hfl (fl (t + d) - t)
  have h3 : |fl (t + d) - t| ≤ u * |t + d| + |d| := by
    have := abs_add_le (fl (t + d) - (t + d)) d
    rw [show fl (t + d) - (t + d) + d = fl (t + d) - t by ring] at this
    linarith
  have h4 := abs_add_le (fl (fl (t + d) - t) - (fl (t + d) - t)) (fl (t + d) - (t + d))
  rw [show fl (fl (t + d) - t) - (fl (t + d) - t) + (fl (t + d) - (t + d)) = fl (fl (t + d) - t) - d by ring] at h4
  have h5 := mul_le_mul_of_nonneg_left h3 hu
  linarith

/-! ### Without rounding -/

theorem plusR_eq {fl : F → F} {D : ℕ} {t : ℤ} {d : F} {p : ℤ} (h : plusR fl D t d = some p) : p = t + trunc (fl (d * D)) := by
  obtain ⟨k, hk, h2⟩ := Option.bind_eq_some_iff.1 h
  rw [toI64_eq h2, toI64_eq hk]

/-- **C137** Where it is defined, the arithmetic without rounding is that of C59. -/
theorem time_rounded_exact {D : ℕ} (t s : ℤ) (d : F) :
    (∀ p, plusR id D t d = some p → p = tplus (1 / (D : F)) t d) ∧ ∀ v, minusR id D s t = some v → v = tminus (1 / (D : F)) s t := by
  constructor
  · intro p h
    rw [plusR_eq h, tplus, div_div_eq_mul_div, div_one, id]
  · intro v h
    unfold minusR at h
    cases hk : toI64 (s - t) with
    | none => rw [hk] at h; cases h
    | some k =>
      rw [hk, Option.map_some] at h
      rw [← Option.some.inj h, toI64_eq hk, tminus]
      simp only [id]
      rw [mul_one_div]

/-- **C137** A desired trajectory that is given in time relative to `t0` (mpc.hpp:541-544, 577-585) and evaluated at a point `d` seconds into the horizon of a call at `t` (mpc.hpp:31) is
evaluated less than one tick, and three roundings, from the right time. -/
theorem time_relative_rounded {fl : F → F} {u : F} (hu : 0 ≤ u) (hfl : RelErr fl u) {D : ℕ} (hD : 0 < D) (t t0 : ℤ) (d : F) {p : ℤ} (hp : plusR fl D t d = some p) (h : |p - t0| < 2 ^ 63) :
    ∃ v, minusR fl D p t0 = some v ∧ |v - (((t : F) - t0) / D + d)| < (1 + u * |d * D| + ((1 + u) ^ 2 - 1) * |((p - t0 : ℤ) : F)|) / D := by
  have hD' : (0 : F) < D := by exact_mod_cast hD
  obtain ⟨v, hv, hve⟩ := time_minus_rounded hu hfl hD p t0 h
  refine ⟨v, hv, ?_⟩
  have h1 : |(p : F) - (t + d * D)| < 1 + u * |d * D| := by
    rw [plusR_eq hp]
    have e : ((t + trunc (fl (d * D)) : ℤ) : F) - (t + d * D) = (trunc (fl (d * D)) - fl (d * D)) + (fl (d * D) - d * D) := by push_cast; ring
    rw [e]
    have := abs_add_le ((trunc (fl (d * D)) : F) - fl (d * D)) (fl (d * D) - d * D)
    have := (trunc_abs_le (fl (d * D))).2.1
    have := hfl (d * D)
    linarith
  rw [lt_div_iff₀ hD']
  have e1 : |v - (((t : F) - t0) / D + d)| * D = |v * D - (t - t0 + d * D)| := by
    rw [← abs_of_pos hD', ← abs_mul, abs_of_pos hD']
    congr 1
    field_simp
  have h2 : |v * D - (p - t0)| ≤ ((1 + u) ^ 2 - 1) * |((p : F) - t0)| := by
    have e : v * D - (p - t0) = (v - ((p : F) - t0) / D) * D := by field_simp
    have e2 : |((p : F) - t0) / D| * D = |(p : F) - t0| := by rw [abs_div, abs_of_pos hD']; field_simp
    rw [e, abs_mul, abs_of_pos hD', ← e2, ← mul_assoc]
    exact mul_le_mul_of_nonneg_right hve hD'.le
  rw [e1]
  push_cast
  have h3 := abs_add_le (v * D - (p - t0)) ((p : F) - (t + d * D))
  rw [show v * D - (p - t0) + ((p : F) - (t + d * D)) = v * D - (t - t0 + d * D) by ring] at h3
  linarith

/-! ### Witnesses in 53 bits -/

/-- **C137**, negated: a difference of 15 nanoseconds, added again, moves the clock by 14. -/
theorem time_step_short : stepR (flBits 52) (10 ^ 9) 0 15 = some 14 := by
  decide +kernel

/-- Over long times the error is larger, and the step can pass the target: 2^54 + 7 nanoseconds. -/
theorem time_step_past : stepR (flBits 52) (10 ^ 9) 0 (2 ^ 54 + 7) = some (2 ^ 54 + 8) := by
  decide +kernel

/-- On a clock with 49 ticks in a second a step of one tick does not move at all. -/
theorem time_step_stuck (t : ℤ) (ht : |t| ≤ 2 ^ 62) : stepR (flBits 52) 49 t (t + 1) = some t := by
  have h : minusR (flBits 52) 49 (t + 1) t = minusR (flBits 52) 49 1 0 := by
    unfold minusR
    rw [show t + 1 - t = 1 - 0 by ring]
  have h2 : (minusR (flBits 52) 49 1 0).bind (toTicks (flBits 52) 49) = some 0 := by decide +kernel
  unfold stepR plusR
  rw [h]
  cases hv : minusR (flBits 52) 49 1 0 with
  | none => rw [hv] at h2; cases h2
  | some v =>
    rw [hv] at h2
    rw [Option.bind_some] at h2 ⊢
    rw [h2, Option.bind_some, add_zero]
    exact toI64_some (by omega)

/-- **C137** Ten thousand million seconds (317 years) are undefined on every nanosecond clock, whatever the time. -/
theorem time_plus_long (t : ℤ) : plusR (flBits 52) (10 ^ 9) t (10 ^ 10) = none :=
  time_plus_undefined (flBits_err 52) (10 ^ 9) t (10 ^ 10) (by norm_num)

/-- A hundred years are defined until the clock, which counts from 1970, reads 2106. -/
example (t : ℤ) (h0 : 0 ≤ t) (ht : t ≤ 43 * 10 ^ 17) (d : ℚ) (hd : |d| ≤ 3156 * 10 ^ 6) : ∃ s, plusR (flBits 52) (10 ^ 9) t d = some s ∧ |(s : ℚ) - (t + d * 10 ^ 9)| < 400 := by
  have e : |d * ((10 ^ 9 : ℕ) : ℚ)| ≤ 3156 * 10 ^ 15 := by
    rw [abs_mul]
    norm_num
    linarith
  have e2 : |(t : ℚ)| ≤ 43 * 10 ^ 17 := by
    rw [abs_of_nonneg (by exact_mod_cast h0)]
    exact_mod_cast ht
  obtain ⟨s, h1, h2⟩ := time_plus_rounded (flBits_err 52) (10 ^ 9) t d (by
    have := mul_le_mul_of_nonneg_left e (by norm_num : (0 : ℚ) ≤ 1 + 1 / 2 ^ 53)
    norm_num at this ⊢
    norm_num at e2
    linarith)
  refine ⟨s, h1, ?_⟩
  have := mul_le_mul_of_nonneg_left e (by norm_num : (0 : ℚ) ≤ 1 / 2 ^ 53)
  push_cast at h2 this
  norm_num at h2 this ⊢
  linarith

/-- Two valid times of which the difference is not defined. -/
example : minusR (flBits 52) (10 ^ 9) (2 ^ 62) (-2 ^ 62 - 1) = none := time_minus_undefined _ _ _ _ (by norm_num)

/-- **C137** On a clock in `double` that counts seconds from 1970, ten nanoseconds are lost. -/
theorem time_double_lost : fplusR (flBits 52) (2 ^ 30) (1 / 10 ^ 8) = 2 ^ 30 ∧ fminusR (flBits 52) (fplusR (flBits 52) (2 ^ 30) (1 / 10 ^ 8)) (2 ^ 30) = 0 := by
  decide +kernel

/-- Half a second into the horizon of a call 15 nanoseconds after `t0`: within two nanoseconds. -/
example : ∃ p, plusR (flBits 52) (10 ^ 9) 15 (1 / 2) = some p ∧ ∃ v, minusR (flBits 52) (10 ^ 9) p 0 = some v ∧ |v - (15 / 10 ^ 9 + 1 / 2)| < 2 / 10 ^ 9 := by
  have hp : plusR (flBits 52) (10 ^ 9) 15 (1 / 2) = some 500000015 := by decide +kernel
  obtain ⟨v, hv, h⟩ := time_relative_rounded (by norm_num) (flBits_err 52) (by norm_num) 15 0 (1 / 2) hp (by norm_num)
  refine ⟨_, hp, v, hv, ?_⟩
  norm_num at h ⊢
  linarith

end Verif.Time
