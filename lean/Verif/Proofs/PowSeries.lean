import Mathlib.Analysis.Calculus.SmoothSeries
import Mathlib.Data.Nat.Choose.Cast
import Mathlib.Analysis.Calculus.FDeriv.Mul
import Mathlib.Analysis.SpecificLimits.Normed
import Mathlib.Analysis.Normed.Operator.Mul
import Mathlib.Tactic.Ring
import Mathlib.Tactic.Positivity
import Mathlib.Tactic.FieldSimp

/-! # Derivatives of power series in a Banach algebra -/

namespace Verif.PowSeries

open Filter

open scoped Topology

variable {R : Type*} [NormedRing R] [NormedAlgebra ℝ R]

/-- The derivative of `xᵏ`. -/
noncomputable def d1 (x : R) : ℕ → R →L[ℝ] R
  | 0 => 0
  | k + 1 => (ContinuousLinearMap.mul ℝ R).flip (x ^ k) + (ContinuousLinearMap.mul ℝ R x).comp (d1 x k)

/-- The derivative of `d1 x k u` by `x`. -/
noncomputable def d2 (x u : R) : ℕ → R →L[ℝ] R
  | 0 => 0
  | k + 1 => (ContinuousLinearMap.mul ℝ R u).comp (d1 x k) + ((ContinuousLinearMap.mul ℝ R).flip (d1 x k u) + (ContinuousLinearMap.mul ℝ R x).comp (d2 x u k))

theorem d1_succ (x u : R) (k : ℕ) : d1 x (k + 1) u = u * x ^ k + x * d1 x k u := rfl

theorem d2_succ (x u v : R) (k : ℕ) : d2 x u (k + 1) v = u * d1 x k v + (v * d1 x k u + x * d2 x u k v) := rfl

theorem pow_hasFDerivAt (x : R) (k : ℕ) : HasFDerivAt (fun x : R => x ^ k) (d1 x k) x := by
  induction k with
  | zero => simpa [d1] using hasFDerivAt_const (1 : R) x
  | succ k ih =>
    have h := (hasFDerivAt_id (𝕜 := ℝ) x).mul' ih
    have e : (fun x : R => x ^ (k + 1)) = fun x => x * x ^ k := funext fun x => pow_succ' x k
    rw [e]
    refine h.congr_fderiv ?_
    ext u
    rw [d1_succ]
    change x * d1 x k u + u * x ^ k = _
    rw [add_comm]

theorem d1_hasFDerivAt (x u : R) (k : ℕ) : HasFDerivAt (fun x : R => d1 x k u) (d2 x u k) x := by
  induction k with
  | zero => simpa [d1, d2] using hasFDerivAt_const (0 : R) x
  | succ k ih =>
    have h := ((ContinuousLinearMap.mul ℝ R u).hasFDerivAt.comp x (pow_hasFDerivAt x k)).add ((hasFDerivAt_id (𝕜 := ℝ) x).mul' ih)
    have e : (fun x : R => d1 x (k + 1) u) = fun x => u * x ^ k + x * d1 x k u := funext fun x => d1_succ x u k
    rw [e]
    refine h.congr_fderiv ?_
    ext v
    rw [d2_succ]
    change u * d1 x k v + (x * d2 x u k v + v * d1 x k u) = _
    rw [add_comm (x * _)]

section

variable {x u : R} {s : ℝ} (h1 : ‖(1 : R)‖ ≤ 1) (hx : ‖x‖ ≤ s)

include h1 hx

theorem norm_pow_le_of (k : ℕ) : ‖x ^ k‖ ≤ s ^ k := by
  have hs := (norm_nonneg x).trans hx
  induction k with
  | zero => simpa using h1
  | succ k ih =>
    rw [pow_succ, pow_succ]
    exact (norm_mul_le _ _).trans (mul_le_mul ih hx (norm_nonneg _) (by positivity))

theorem norm_d1_apply (k : ℕ) (u : R) : ‖d1 x k u‖ ≤ k * s ^ (k - 1) * ‖u‖ := by
  have hs := (norm_nonneg x).trans hx
  induction k with
  | zero => simp [d1]
  | succ k ih =>
    have e : ((k + 1 : ℕ) : ℝ) * s ^ (k + 1 - 1) * ‖u‖ = ‖u‖ * s ^ k + s * (k * s ^ (k - 1) * ‖u‖) := by
      cases k with
      | zero => simp
      | succ k => simp only [Nat.add_sub_cancel, pow_succ]; push_cast; ring
    rw [d1_succ, e]
    refine (norm_add_le _ _).trans (add_le_add ((norm_mul_le _ _).trans ?_) ((norm_mul_le _ _).trans ?_))
    · exact mul_le_mul_of_nonneg_left (norm_pow_le_of h1 hx k) (norm_nonneg _)
    · exact mul_le_mul hx ih (norm_nonneg _) hs

theorem norm_d1 (k : ℕ) : ‖d1 x k‖ ≤ k * s ^ (k - 1) := by
  have hs := (norm_nonneg x).trans hx
  exact ContinuousLinearMap.opNorm_le_bound _ (by positivity) (norm_d1_apply h1 hx k)

theorem norm_d2_apply (k : ℕ) (u v : R) : ‖d2 x u k v‖ ≤ k * (k - 1) * s ^ (k - 2) * ‖u‖ * ‖v‖ := by
  have hs := (norm_nonneg x).trans hx
  induction k with
  | zero => simp [d2]
  | succ k ih =>
    have e : ((k + 1 : ℕ) : ℝ) * ((k + 1 : ℕ) - 1) * s ^ (k + 1 - 2) * ‖u‖ * ‖v‖ = ‖u‖ * (k * s ^ (k - 1) * ‖v‖) +
        (‖v‖ * (k * s ^ (k - 1) * ‖u‖) + s * (k * (k - 1) * s ^ (k - 2) * ‖u‖ * ‖v‖)) := by
      match k with
      | 0 => simp
      | 1 => norm_num; ring
      | k + 2 =>
        rw [show k + 2 + 1 - 2 = k + 1 by omega, show k + 2 - 1 = k + 1 by omega, Nat.add_sub_cancel, pow_succ]
        push_cast
        ring
    rw [d2_succ, e]
    refine (norm_add_le _ _).trans (add_le_add ((norm_mul_le _ _).trans ?_) ((norm_add_le _ _).trans (add_le_add ((norm_mul_le _ _).trans ?_) ((norm_mul_le _ _).trans ?_))))
    · exact mul_le_mul_of_nonneg_left (norm_d1_apply h1 hx k v) (norm_nonneg _)
    · exact mul_le_mul_of_nonneg_left (norm_d1_apply h1 hx k u) (norm_nonneg _)
    · exact mul_le_mul hx ih (norm_nonneg _) hs

theorem norm_d2 (k : ℕ) (u : R) : ‖d2 x u k‖ ≤ k * (k - 1) * s ^ (k - 2) * ‖u‖ := by
  have hs := (norm_nonneg x).trans hx
  refine ContinuousLinearMap.opNorm_le_bound _ ?_ (norm_d2_apply h1 hx k u)
  rcases k with _ | k
  · simp
  · have : (0 : ℝ) ≤ (k + 1 : ℕ) - 1 := by push_cast; simp
    positivity

end

/-! ### The sums of the bounds -/

variable {q ρ s : ℝ} {x : R}

theorem geo0 (hρ0 : 0 ≤ ρ) (hρ1 : ρ < 1) : HasSum (fun k : ℕ => 4 * ρ ^ (k + 24)) (4 * ρ ^ 24 / (1 - ρ)) := by
  have := (hasSum_geometric_of_lt_one hρ0 hρ1).mul_left (4 * ρ ^ 24)
  rw [← div_eq_mul_inv] at this
  refine this.congr_fun fun k => ?_
  rw [pow_add]; ring

theorem geo1 (hρ0 : 0 ≤ ρ) (hρ1 : ρ < 1) : HasSum (fun k : ℕ => 4 * ((k + 24 : ℕ) * ρ ^ (k + 23))) (4 * (24 * ρ ^ 23 / (1 - ρ) + ρ ^ 24 / (1 - ρ) ^ 2)) := by
  have hn : ‖ρ‖ < 1 := by rwa [Real.norm_of_nonneg hρ0]
  have h0 := (hasSum_geometric_of_lt_one hρ0 hρ1).mul_left (4 * 24 * ρ ^ 23)
  have h1 := (hasSum_coe_mul_geometric_of_norm_lt_one hn).mul_left (4 * ρ ^ 23)
  have h := h0.add h1
  have e : 4 * 24 * ρ ^ 23 * (1 - ρ)⁻¹ + 4 * ρ ^ 23 * (ρ / (1 - ρ) ^ 2) = 4 * (24 * ρ ^ 23 / (1 - ρ) + ρ ^ 24 / (1 - ρ) ^ 2) := by
    rw [div_eq_mul_inv, div_eq_mul_inv, div_eq_mul_inv]; ring
  rw [e] at h
  refine h.congr_fun fun k => ?_
  push_cast
  rw [pow_add]; ring

theorem geo2 (hρ0 : 0 ≤ ρ) (hρ1 : ρ < 1) : HasSum (fun k : ℕ => 4 * ((k + 24 : ℕ) * ((k + 24 : ℕ) - 1) * ρ ^ (k + 22)))
    (4 * (552 * ρ ^ 22 / (1 - ρ) + 48 * ρ ^ 23 / (1 - ρ) ^ 2 + 2 * ρ ^ 24 / (1 - ρ) ^ 3)) := by
  have hn : ‖ρ‖ < 1 := by rwa [Real.norm_of_nonneg hρ0]
  have h0 := (hasSum_geometric_of_lt_one hρ0 hρ1).mul_left (4 * 550 * ρ ^ 22)
  have h1 := (hasSum_coe_mul_geometric_of_norm_lt_one hn).mul_left (4 * 44 * ρ ^ 22)
  have h2 := (hasSum_choose_mul_geometric_of_norm_lt_one 2 hn).mul_left (4 * 2 * ρ ^ 22)
  have h := (h0.add h1).add h2
  have h3 : (1 - ρ) ≠ 0 := by linarith
  have e : 4 * 550 * ρ ^ 22 * (1 - ρ)⁻¹ + 4 * 44 * ρ ^ 22 * (ρ / (1 - ρ) ^ 2) + 4 * 2 * ρ ^ 22 * (1 / (1 - ρ) ^ (2 + 1)) =
      4 * (552 * ρ ^ 22 / (1 - ρ) + 48 * ρ ^ 23 / (1 - ρ) ^ 2 + 2 * ρ ^ 24 / (1 - ρ) ^ 3) := by
    field_simp
    ring
  rw [e] at h
  refine h.congr_fun fun k => ?_
  have hc : (((k + 2).choose 2 : ℕ) : ℝ) = (k + 2) * (k + 1) / 2 := by
    rw [Nat.cast_choose_two]; push_cast; ring
  rw [hc]
  push_cast
  rw [pow_add]; ring

/-! ### Tails of power series -/

variable [CompleteSpace R] {c : ℕ → ℝ}

/-- The tail from the 24th power. -/
noncomputable def tail (c : ℕ → ℝ) (x : R) : R := ∑' k : ℕ, c (k + 24) • x ^ (k + 24)

/-- Its derivative. -/
noncomputable def tail1 (c : ℕ → ℝ) (x : R) : R →L[ℝ] R := ∑' k : ℕ, c (k + 24) • d1 x (k + 24)

/-- The derivative of `tail1 c x u`. -/
noncomputable def tail2 (c : ℕ → ℝ) (x u : R) : R →L[ℝ] R := ∑' k : ℕ, c (k + 24) • d2 x u (k + 24)

section

variable (h1 : ‖(1 : R)‖ ≤ 1) (hq : 0 < q) (hc : ∀ k, |c (k + 24)| ≤ 4 * q ^ (k + 24)) (hs0 : 0 ≤ s) (hs1 : q * s < 1) (hx : ‖x‖ ≤ s)

include h1 hq hc hs0 hx

theorem term0 (k : ℕ) : ‖c (k + 24) • x ^ (k + 24)‖ ≤ 4 * (q * s) ^ (k + 24) := by
  rw [norm_smul, Real.norm_eq_abs]
  refine (mul_le_mul (hc k) (norm_pow_le_of h1 hx _) (norm_nonneg _) (by positivity)).trans (le_of_eq ?_)
  rw [mul_pow]; ring

theorem term1 (k : ℕ) : ‖c (k + 24) • d1 x (k + 24)‖ ≤ q * (4 * ((k + 24 : ℕ) * (q * s) ^ (k + 23))) := by
  rw [norm_smul, Real.norm_eq_abs]
  refine (mul_le_mul (hc k) (norm_d1 h1 hx _) (norm_nonneg _) (by positivity)).trans (le_of_eq ?_)
  rw [mul_pow, show k + 24 - 1 = k + 23 by omega, show k + 24 = k + 23 + 1 by omega, pow_succ q]; ring

theorem term2 (k : ℕ) (u : R) : ‖c (k + 24) • d2 x u (k + 24)‖ ≤ q ^ 2 * ‖u‖ * (4 * ((k + 24 : ℕ) * ((k + 24 : ℕ) - 1) * (q * s) ^ (k + 22))) := by
  rw [norm_smul, Real.norm_eq_abs]
  refine (mul_le_mul (hc k) (norm_d2 h1 hx _ u) (norm_nonneg _) (by positivity)).trans (le_of_eq ?_)
  rw [mul_pow, show k + 24 - 2 = k + 22 by omega, show q ^ (k + 24) = q ^ (k + 22) * q ^ 2 by rw [← pow_add]]; ring

include hs1

theorem norm_tail : ‖tail c x‖ ≤ 4 * (q * s) ^ 24 / (1 - q * s) :=
  tsum_of_norm_bounded (geo0 (by positivity) hs1) (term0 h1 hq hc hs0 hx)

theorem norm_tail1 : ‖tail1 c x‖ ≤ q * (4 * (24 * (q * s) ^ 23 / (1 - q * s) + (q * s) ^ 24 / (1 - q * s) ^ 2)) :=
  tsum_of_norm_bounded ((geo1 (by positivity) hs1).mul_left q) (term1 h1 hq hc hs0 hx)

theorem norm_tail2 (u : R) : ‖tail2 c x u‖ ≤
    q ^ 2 * ‖u‖ * (4 * (552 * (q * s) ^ 22 / (1 - q * s) + 48 * (q * s) ^ 23 / (1 - q * s) ^ 2 + 2 * (q * s) ^ 24 / (1 - q * s) ^ 3)) :=
  tsum_of_norm_bounded ((geo2 (by positivity) hs1).mul_left (q ^ 2 * ‖u‖)) fun k => term2 h1 hq hc hs0 hx k u

theorem tail_summable : Summable fun k : ℕ => c (k + 24) • x ^ (k + 24) :=
  Summable.of_norm_bounded (geo0 (by positivity) hs1).summable (term0 h1 hq hc hs0 hx)

theorem tail1_summable : Summable fun k : ℕ => c (k + 24) • d1 x (k + 24) :=
  Summable.of_norm_bounded ((geo1 (by positivity) hs1).mul_left q).summable (term1 h1 hq hc hs0 hx)

omit hx

theorem tail_hasFDerivAt (hx : ‖x‖ < s) : HasFDerivAt (tail c) (tail1 c x) x := by
  have hm : ∀ {y : R}, y ∈ Metric.ball (0 : R) s → ‖y‖ ≤ s := fun hy => (mem_ball_zero_iff.1 hy).le
  exact hasFDerivAt_tsum_of_isPreconnected ((geo1 (by positivity) hs1).mul_left q).summable Metric.isOpen_ball
    (convex_ball (0 : R) s).isPreconnected (fun k y _ => (pow_hasFDerivAt y (k + 24)).const_smul (c (k + 24)))
    (fun k y hy => term1 h1 hq hc hs0 (hm hy) k) (mem_ball_zero_iff.2 hx) (tail_summable h1 hq hc hs0 hs1 hx.le) (mem_ball_zero_iff.2 hx)

theorem tail1_apply (hx : ‖x‖ ≤ s) (u : R) : tail1 c x u = ∑' k : ℕ, c (k + 24) • d1 x (k + 24) u :=
  ((tail1_summable h1 hq hc hs0 hs1 hx).hasSum.mapL (ContinuousLinearMap.apply ℝ R u)).tsum_eq.symm

theorem tail1_hasFDerivAt (hx : ‖x‖ < s) (u : R) : HasFDerivAt (fun x => tail1 c x u) (tail2 c x u) x := by
  have hm : ∀ {y : R}, y ∈ Metric.ball (0 : R) s → ‖y‖ ≤ s := fun hy => (mem_ball_zero_iff.1 hy).le
  have h := hasFDerivAt_tsum_of_isPreconnected ((geo2 (by positivity) hs1).mul_left (q ^ 2 * ‖u‖)).summable Metric.isOpen_ball
    (convex_ball (0 : R) s).isPreconnected (fun k y _ => (d1_hasFDerivAt y u (k + 24)).const_smul (c (k + 24)))
    (fun k y hy => term2 h1 hq hc hs0 (hm hy) k u) (mem_ball_zero_iff.2 hx)
    ((tail1_summable h1 hq hc hs0 hs1 hx.le).hasSum.mapL (ContinuousLinearMap.apply ℝ R u)).summable (mem_ball_zero_iff.2 hx)
  refine h.congr_of_eventuallyEq ?_
  filter_upwards [Metric.isOpen_ball.mem_nhds (mem_ball_zero_iff.2 hx)] with y hy
  exact tail1_apply h1 hq hc hs0 hs1 (hm hy) u

end

end Verif.PowSeries
