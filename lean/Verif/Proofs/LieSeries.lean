import Verif.Proofs.FlattenLie
import Mathlib.Analysis.SpecialFunctions.Exponential
import Mathlib.Analysis.Normed.Ring.InfiniteSum
import Mathlib.NumberTheory.ZetaValues
import Mathlib.Analysis.Calculus.MeanValue
import Mathlib.Analysis.Calculus.Deriv.Prod
import Mathlib.Analysis.Real.Pi.Bounds
import Verif.Spec.FlattenDeriv

/-! # The series of `dr_exp` and of its inverse -/

set_option linter.unusedSectionVars false

namespace Verif.Lie

open Verif.Flatten

open scoped Matrix Topology
open Filter

variable {X 𝔸 : Type*} {n : ℕ} [NormedRing 𝔸] [NormedAlgebra ℝ 𝔸] [FiniteDimensional ℝ 𝔸] [CompleteSpace 𝔸]
  {L : LieOps X ℝ n} {mat : X → 𝔸} {hat : (Fin n → ℝ) →ₗ[ℝ] 𝔸}

/-- `s dr_exp(s a) b`. -/
def yv (L : LieOps X ℝ n) (a b : Fin n → ℝ) (s : ℝ) : Fin n → ℝ := s • (L.drExp (s • a) *ᵥ b)

theorem exp_hat_line (h : IsLie L mat hat) (a b : Fin n → ℝ) (s : ℝ) :
    HasDerivAt (fun ε : ℝ => NormedSpace.exp (hat (s • (a + ε • b)))) (NormedSpace.exp (hat (s • a)) * hat (yv L a b s)) 0 := by
  obtain ⟨D, hD, hDb⟩ := h.drExp (s • a)
  have h1 : HasDerivAt (fun ε : ℝ => s • (a + ε • b)) (s • b) 0 := by
    have h0 : HasDerivAt (fun ε : ℝ => a + ε • b) b 0 := by
      have := ((hasDerivAt_id (0 : ℝ)).smul_const b).const_add a
      rwa [one_smul] at this
    exact h0.const_smul s
  have h2 : HasFDerivAt (fun a => NormedSpace.exp (hat a)) D (s • (a + (0 : ℝ) • b)) := by simpa using hD
  have h3 := h2.comp_hasDerivAt (0 : ℝ) h1
  refine h3.congr_deriv ?_
  rw [D.map_smul, hDb, yv, hat.map_smul s (L.drExp (s • a) *ᵥ b), mul_smul_comm]

theorem yv_add (h : IsLie L mat hat) (a b : Fin n → ℝ) (s t : ℝ) : yv L a b (s + t) = adVel L (t • a) (yv L a b s) + yv L a b t := by
  refine h.hat_inj ?_
  have h1 := (exp_hat_line h a b s).mul (exp_hat_line h a b t)
  have h2 := exp_hat_line h a b (s + t)
  have hc : ∀ c : Fin n → ℝ, NormedSpace.exp (hat ((s + t) • c)) = NormedSpace.exp (hat (s • c)) * NormedSpace.exp (hat (t • c)) := by
    intro c
    letI : NormedAlgebra ℚ 𝔸 := NormedAlgebra.restrictScalars ℚ ℝ 𝔸
    rw [add_smul, map_add, NormedSpace.exp_add_of_commute]
    rw [map_smul, map_smul]
    exact ((Commute.refl _).smul_left _).smul_right _
  simp only [hc (a + _ • b)] at h2
  have e := h2.unique h1
  rw [zero_smul, add_zero] at e
  rw [map_add, adVel, h.hat_Ad_exp]
  have e' : NormedSpace.exp (hat ((s + t) • a)) * hat (yv L a b (s + t)) = NormedSpace.exp (hat ((s + t) • a)) *
      (NormedSpace.exp (-hat (t • a)) * hat (yv L a b s) * NormedSpace.exp (hat (t • a)) + hat (yv L a b t)) := by
    rw [e, hc a, mul_add]
    refine congrArg₂ (fun x y : 𝔸 => x + y) ?_ ?_
    · have := exp_mul_neg (hat (t • a))
      simp only [mul_assoc]
      rw [← mul_assoc (NormedSpace.exp (hat (t • a))) (NormedSpace.exp (-hat (t • a))), this, one_mul]
    · rw [mul_assoc]
  have e2 := congrArg (fun x => NormedSpace.exp (-hat ((s + t) • a)) * x) e'
  rwa [← mul_assoc, ← mul_assoc, exp_neg_mul, one_mul, one_mul] at e2

theorem ad_antisymm (h : IsLie L mat hat) (a b : Fin n → ℝ) : L.ad a *ᵥ b = -(L.ad b *ᵥ a) := by
  refine h.hat_inj ?_
  rw [map_neg, h.ad, h.ad]
  noncomm_ring

theorem Ad_exp_zero (h : IsLie L mat hat) (w : Fin n → ℝ) : L.Ad (L.exp (-0)) *ᵥ w = w := by
  refine h.hat_inj ?_
  rw [h.hat_Ad_exp, map_zero, neg_zero, NormedSpace.exp_zero, one_mul, mul_one]

theorem yv_hasDerivAt (h : IsLie L mat hat) (a b : Fin n → ℝ) (s : ℝ) : HasDerivAt (yv L a b) (b - L.ad a *ᵥ yv L a b s) s := by
  have h1 : HasDerivAt (fun t : ℝ => adVel L (t • a) (yv L a b s)) (-(L.ad a *ᵥ yv L a b s)) 0 := by
    have h0 : HasDerivAt (fun t : ℝ => t • a) a 0 := by simpa using (hasDerivAt_id (0 : ℝ)).smul_const a
    have h2 := adVel_hasFDerivAt h ((0 : ℝ) • a) (yv L a b s)
    refine (h2.comp_hasDerivAt (0 : ℝ) h0).congr_deriv ?_
    change dAdexp L ((0 : ℝ) • a) (yv L a b s) *ᵥ a = _
    rw [dAdexp, zero_smul, neg_zero, h.drExp_zero, mul_one, ← Matrix.mulVec_mulVec, adVel]
    have := Ad_exp_zero h a
    have h3 := Ad_exp_zero h (yv L a b s)
    rw [neg_zero] at this h3
    rw [neg_zero, this, h3, ad_antisymm h]
  have h2 : HasDerivAt (yv L a b) b 0 := by
    have h0 : HasDerivAt (fun t : ℝ => t • a) a 0 := by simpa using (hasDerivAt_id (0 : ℝ)).smul_const a
    have h3 : DifferentiableAt ℝ (fun t : ℝ => L.drExp (t • a) *ᵥ b) 0 := by
      refine differentiableAt_pi.2 fun i => ?_
      change DifferentiableAt ℝ (fun t : ℝ => ∑ j, L.drExp (t • a) i j * b j) 0
      refine DifferentiableAt.fun_sum fun j _ => DifferentiableAt.mul_const ?_ _
      exact ((drExp_smooth h i j).differentiable (by simp) ((0 : ℝ) • a)).comp (0 : ℝ) h0.differentiableAt
    have h4 := (hasDerivAt_id (0 : ℝ)).smul h3.hasDerivAt
    refine h4.congr_deriv ?_
    simp [h.drExp_zero]
  have h3 : HasDerivAt (fun t => yv L a b (s + t)) (b - L.ad a *ᵥ yv L a b s) 0 := by
    simp only [yv_add h a b s]
    refine (h1.add h2).congr_deriv ?_
    rw [neg_add_eq_sub]
  have h4 : HasDerivAt (fun t => yv L a b (s + t)) (b - L.ad a *ᵥ yv L a b s) (s - s) := by rwa [sub_self]
  have h5 := HasDerivAt.scomp (h := fun t => t - s) s h4 ((hasDerivAt_id s).sub_const s)
  rw [one_smul] at h5
  refine h5.congr_of_eventuallyEq (Eventually.of_forall fun t => ?_)
  simp

/-- The series of the right derivative of the exponential map. -/
theorem IsLie.drExp_hasSum (h : IsLie L mat hat) (a b : Fin n → ℝ) :
    HasSum (fun k : ℕ => ((k + 1).factorial : ℝ)⁻¹ • ((-L.ad a) ^ k *ᵥ b)) (L.drExp a *ᵥ b) := by
  let V := Fin n → ℝ
  let E : (V × ℝ) →L[ℝ] (V × ℝ) :=
    ((Matrix.mulVecLin (-L.ad a)).toContinuousLinearMap.comp (ContinuousLinearMap.fst ℝ V ℝ) +
      (ContinuousLinearMap.snd ℝ V ℝ).smulRight b).prod 0
  have hE : ∀ v c, E (v, c) = ((-L.ad a) *ᵥ v + c • b, 0) := fun v c => rfl
  let Y : ℝ → V × ℝ := fun s => (yv L a b s, 1)
  have hY : ∀ s, HasDerivAt Y (E (Y s)) s := by
    intro s
    have : HasDerivAt Y (b - L.ad a *ᵥ yv L a b s, 0) s := HasDerivAt.prodMk (yv_hasDerivAt h a b s) (hasDerivAt_const s (1 : ℝ))
    refine this.congr_deriv ?_
    change _ = E (yv L a b s, 1)
    rw [hE, one_smul, Matrix.neg_mulVec, neg_add_eq_sub]
  have hZ : ∀ s, HasDerivAt (fun s : ℝ => NormedSpace.exp (s • -E) (Y s)) 0 s := by
    intro s
    have h1 := (hasDerivAt_exp_smul_const (𝕂 := ℝ) (-E) s).clm_apply (hY s)
    refine h1.congr_deriv ?_
    change NormedSpace.exp (s • -E) (-E (Y s)) + NormedSpace.exp (s • -E) (E (Y s)) = 0
    rw [map_neg, neg_add_cancel]
  have hconst := is_const_of_deriv_eq_zero (fun s => (hZ s).differentiableAt) (fun s => (hZ s).deriv) 1 0
  rw [zero_smul, NormedSpace.exp_zero, one_smul] at hconst
  have h1 : Y 1 = NormedSpace.exp E (Y 0) := by
    have h2 := congrArg (fun v => NormedSpace.exp E v) hconst
    rw [← ContinuousLinearMap.mul_apply, exp_mul_neg] at h2
    exact h2
  have hp : ∀ k : ℕ, (E ^ (k + 1)) ((0 : V), (1 : ℝ)) = ((-L.ad a) ^ k *ᵥ b, (0 : ℝ)) := by
    intro k
    induction k with
    | zero => rw [zero_add, pow_one, hE, Matrix.mulVec_zero, zero_add, one_smul, pow_zero, Matrix.one_mulVec]
    | succ k ih => rw [pow_succ', ContinuousLinearMap.mul_apply, ih, hE, zero_smul, add_zero, pow_succ' (-L.ad a), ← Matrix.mulVec_mulVec]
  have hs := (NormedSpace.exp_series_hasSum_exp' (𝕂 := ℝ) E).mapL
    ((ContinuousLinearMap.fst ℝ V ℝ).comp (ContinuousLinearMap.apply ℝ (V × ℝ) ((0 : V), (1 : ℝ))))
  have e0 : Y 0 = ((0 : V), (1 : ℝ)) := by
    change (yv L a b 0, (1 : ℝ)) = _
    rw [yv, zero_smul]
  rw [← e0] at hs
  change HasSum _ (NormedSpace.exp E (Y 0)).1 at hs
  rw [← h1] at hs
  have e1 : (Y 1).1 = L.drExp a *ᵥ b := by
    change yv L a b 1 = _
    rw [yv, one_smul, one_smul]
  rw [e1, ← hasSum_nat_add_iff' 1] at hs
  rw [e0] at hs
  have e2 : ∀ k : ℕ, ((ContinuousLinearMap.fst ℝ V ℝ).comp (ContinuousLinearMap.apply ℝ (V × ℝ) ((0 : V), (1 : ℝ)))) (((k + 1).factorial : ℝ)⁻¹ • E ^ (k + 1)) =
      ((k + 1).factorial : ℝ)⁻¹ • ((-L.ad a) ^ k *ᵥ b) := by
    intro k
    rw [map_smul]
    change _ • ((E ^ (k + 1)) ((0 : V), (1 : ℝ))).1 = _
    rw [hp]
  simp only [e2] at hs
  have e3 : L.drExp a *ᵥ b - ∑ i ∈ Finset.range 1, ((ContinuousLinearMap.fst ℝ V ℝ).comp (ContinuousLinearMap.apply ℝ (V × ℝ) ((0 : V), (1 : ℝ))))
      ((i.factorial : ℝ)⁻¹ • E ^ i) = L.drExp a *ᵥ b := by
    simp
  rw [e3] at hs
  exact hs

/-! ### The inverse series -/

/-- `Bₙ / n!`. -/
noncomputable def bc (n : ℕ) : ℝ := ((bernoulli n : ℚ) : ℝ) / n.factorial

theorem bern_conv (m : ℕ) : ∑ k ∈ Finset.range (m + 1), bc k * ((m - k + 1).factorial : ℝ)⁻¹ = if m = 0 then 1 else 0 := by
  have h := sum_bernoulli (m + 1)
  have h' : (∑ k ∈ Finset.range (m + 1), ((m + 1).choose k : ℝ) * ((bernoulli k : ℚ) : ℝ)) = if m + 1 = 1 then 1 else 0 := by
    have := congrArg (fun q : ℚ => (q : ℝ)) h
    push_cast at this
    rw [this]
    by_cases hm : m = 0 <;> simp [hm]
  have hf : ((m + 1).factorial : ℝ) ≠ 0 := by exact_mod_cast (m + 1).factorial_ne_zero
  have e : ∀ k ∈ Finset.range (m + 1), bc k * ((m - k + 1).factorial : ℝ)⁻¹ = ((m + 1).choose k : ℝ) * ((bernoulli k : ℚ) : ℝ) / (m + 1).factorial := by
    intro k hk
    have hk' : k ≤ m + 1 := (Finset.mem_range.1 hk).le
    have h1 : ((m + 1).choose k * k.factorial * (m + 1 - k).factorial : ℝ) = (m + 1).factorial := by exact_mod_cast Nat.choose_mul_factorial_mul_factorial hk'
    have h2 : m - k + 1 = m + 1 - k := by have := Finset.mem_range.1 hk; omega
    have h3 : (k.factorial : ℝ) ≠ 0 := by exact_mod_cast k.factorial_ne_zero
    have h4 : ((m + 1 - k).factorial : ℝ) ≠ 0 := by exact_mod_cast (m + 1 - k).factorial_ne_zero
    rw [h2, bc, ← h1]
    have h5 : ((m + 1).choose k : ℝ) ≠ 0 := by exact_mod_cast (Nat.choose_pos hk').ne'
    field_simp
  rw [Finset.sum_congr rfl e, ← Finset.sum_div, h']
  by_cases hm : m = 0
  · subst hm; simp
  · rw [if_neg hm, if_neg (by omega), zero_div]

variable {R : Type*} [NormedRing R] [NormedAlgebra ℝ R] [CompleteSpace R]

theorem exp1_summable (x : R) : Summable fun k : ℕ => ‖((k + 1).factorial : ℝ)⁻¹ • x ^ k‖ := by
  have h := NormedSpace.norm_expSeries_summable' (𝕂 := ℝ) x
  refine Summable.of_nonneg_of_le (fun _ => norm_nonneg _) (fun k => ?_) h
  rw [norm_smul, norm_smul]
  refine mul_le_mul_of_nonneg_right ?_ (norm_nonneg _)
  rw [norm_inv, norm_inv, Real.norm_natCast, Real.norm_natCast]
  exact inv_anti₀ (by exact_mod_cast k.factorial_pos) (by exact_mod_cast Nat.factorial_le k.le_succ)

/-- The product of the two series. -/
theorem bern_mul (x : R) (hx : Summable fun k => ‖bc k • x ^ k‖) :
    (∑' k, bc k • x ^ k) * (∑' k : ℕ, ((k + 1).factorial : ℝ)⁻¹ • x ^ k) = 1 ∧ (∑' k : ℕ, ((k + 1).factorial : ℝ)⁻¹ • x ^ k) * (∑' k, bc k • x ^ k) = 1 := by
  have key : ∀ m : ℕ, ∑ k ∈ Finset.range (m + 1), (bc k • x ^ k) * (((m - k + 1).factorial : ℝ)⁻¹ • x ^ (m - k)) = if m = 0 then 1 else 0 := by
    intro m
    have e : ∀ k ∈ Finset.range (m + 1), (bc k • x ^ k) * (((m - k + 1).factorial : ℝ)⁻¹ • x ^ (m - k)) = (bc k * ((m - k + 1).factorial : ℝ)⁻¹) • x ^ m := by
      intro k hk
      rw [smul_mul_smul_comm, ← pow_add, Nat.add_sub_cancel' (Nat.lt_succ_iff.1 (Finset.mem_range.1 hk))]
    rw [Finset.sum_congr rfl e, ← Finset.sum_smul, bern_conv]
    by_cases hm : m = 0
    · subst hm; simp
    · rw [if_neg hm, if_neg hm, zero_smul]
  have h1 := hasSum_sum_range_mul_of_summable_norm hx (exp1_summable x)
  have h2 := hasSum_sum_range_mul_of_summable_norm (exp1_summable x) hx
  simp only [key] at h1
  have h3 : ∀ m : ℕ, ∑ k ∈ Finset.range (m + 1), (((k + 1).factorial : ℝ)⁻¹ • x ^ k) * (bc (m - k) • x ^ (m - k)) = if m = 0 then 1 else 0 := by
    intro m
    rw [← key m, ← Finset.sum_range_reflect]
    refine Finset.sum_congr rfl fun k hk => ?_
    have hk' := Nat.lt_succ_iff.1 (Finset.mem_range.1 hk)
    rw [show m + 1 - 1 - k = m - k by omega, show m - (m - k) = k by omega, smul_mul_smul_comm, smul_mul_smul_comm, ← pow_add, ← pow_add,
      mul_comm (bc k), add_comm k]
  simp only [h3] at h2
  have h4 : HasSum (fun m : ℕ => if m = 0 then (1 : R) else 0) 1 := hasSum_ite_eq 0 1
  exact ⟨h1.unique h4, h2.unique h4⟩

/-- The coefficients. -/
theorem abs_bc_even {k : ℕ} (hk : k ≠ 0) : |bc (2 * k)| ≤ 4 / (2 * Real.pi) ^ (2 * k) := by
  have h := hasSum_zeta_nat hk
  have h2 := hasSum_zeta_two
  have hpi := Real.pi_pos
  have h3 : (-1 : ℝ) ^ (k + 1) * (2 : ℝ) ^ (2 * k - 1) * Real.pi ^ (2 * k) * bernoulli (2 * k) / (2 * k).factorial ≤ Real.pi ^ 2 / 6 := by
    refine hasSum_le (fun n => ?_) h h2
    rcases Nat.eq_zero_or_pos n with h0 | h0
    · subst h0
      rw [Nat.cast_zero, zero_pow (by omega), zero_pow (by omega)]
    · refine one_div_le_one_div_of_le (by positivity) ?_
      exact pow_le_pow_right₀ (by exact_mod_cast h0) (by omega)
  have h4 : 0 ≤ (-1 : ℝ) ^ (k + 1) * (2 : ℝ) ^ (2 * k - 1) * Real.pi ^ (2 * k) * bernoulli (2 * k) / (2 * k).factorial :=
    h.nonneg fun n => by positivity
  have h5 : |bc (2 * k)| * ((2 : ℝ) ^ (2 * k - 1) * Real.pi ^ (2 * k)) =
      (-1 : ℝ) ^ (k + 1) * (2 : ℝ) ^ (2 * k - 1) * Real.pi ^ (2 * k) * bernoulli (2 * k) / (2 * k).factorial := by
    rw [← abs_of_nonneg h4, bc, abs_div, abs_div, abs_mul, abs_mul, abs_mul, abs_pow, abs_neg, abs_one, one_pow, one_mul,
      abs_of_nonneg (show (0 : ℝ) ≤ 2 ^ (2 * k - 1) by positivity), abs_of_nonneg (show (0 : ℝ) ≤ Real.pi ^ (2 * k) by positivity)]
    ring
  rw [le_div_iff₀ (by positivity)]
  have h6 : (2 * Real.pi) ^ (2 * k) = 2 * ((2 : ℝ) ^ (2 * k - 1) * Real.pi ^ (2 * k)) := by
    rw [mul_pow, ← mul_assoc, ← pow_succ', show 2 * k - 1 + 1 = 2 * k by omega]
  have h7 : Real.pi ^ 2 / 6 ≤ 2 := by
    have := Real.pi_lt_d2
    nlinarith
  rw [h6]
  linarith

theorem bc_odd {n : ℕ} (hn : Odd n) (h1 : 1 < n) : bc n = 0 := by
  rw [bc, bernoulli_eq_zero_of_odd hn h1]; simp

theorem abs_bc_le {n : ℕ} (hn : 2 ≤ n) : |bc n| ≤ 4 / (2 * Real.pi) ^ n := by
  rcases Nat.even_or_odd n with he | ho
  · obtain ⟨k, rfl⟩ := he
    rw [← two_mul]
    exact abs_bc_even (by omega)
  · rw [bc_odd ho (by omega), abs_zero]
    have := Real.pi_pos
    positivity

/-! ### The inverse of `dr_exp` -/

variable {E : Type*} [NormedAddCommGroup E] [NormedSpace ℝ E]

/-- `-ad(a)` in other coordinates. -/
noncomputable def adOp [FiniteDimensional ℝ E] (L : LieOps X ℝ n) (T : (Fin n → ℝ) ≃ₗ[ℝ] E) (a : Fin n → ℝ) : E →L[ℝ] E :=
  (T.toLinearMap ∘ₗ Matrix.mulVecLin (-L.ad a) ∘ₗ T.symm.toLinearMap).toContinuousLinearMap

theorem adOp_pow [FiniteDimensional ℝ E] (T : (Fin n → ℝ) ≃ₗ[ℝ] E) (a b : Fin n → ℝ) (k : ℕ) : (adOp L T a ^ k) (T b) = T ((-L.ad a) ^ k *ᵥ b) := by
  induction k with
  | zero => rw [pow_zero, pow_zero, Matrix.one_mulVec]; rfl
  | succ k ih =>
    rw [pow_succ', pow_succ', ContinuousLinearMap.mul_apply, ih, ← Matrix.mulVec_mulVec]
    change T ((-L.ad a) *ᵥ T.symm (T _)) = _
    rw [T.symm_apply_apply]

theorem drExpinv_series [FiniteDimensional ℝ E] (h : IsLie L mat hat) (T : (Fin n → ℝ) ≃ₗ[ℝ] E) (a : Fin n → ℝ)
    (hs : Summable fun k => ‖bc k • adOp L T a ^ k‖) :
    IsUnit (L.drExp a).det ∧ ∀ b, HasSum (fun k => bc k • T ((-L.ad a) ^ k *ᵥ b)) (T (L.drExpinv a *ᵥ b)) := by
  haveI : CompleteSpace E := FiniteDimensional.complete ℝ E
  let x := adOp L T a
  let Tc : (Fin n → ℝ) →L[ℝ] E := T.toLinearMap.toContinuousLinearMap
  obtain ⟨h1, h2⟩ := bern_mul x hs
  have hD : ∀ b, (∑' k : ℕ, ((k + 1).factorial : ℝ)⁻¹ • x ^ k) (T b) = T (L.drExp a *ᵥ b) := by
    intro b
    have e1 := ((exp1_summable x).of_norm.hasSum).mapL (ContinuousLinearMap.apply ℝ E (T b))
    have e2 := (IsLie.drExp_hasSum h a b).mapL Tc
    refine (e1.congr_fun fun k => ?_).unique e2
    change T _ = (((k + 1).factorial : ℝ)⁻¹ • x ^ k) (T b)
    rw [map_smul, ContinuousLinearMap.smul_apply, adOp_pow]
  have hG : ∀ b, HasSum (fun k => bc k • T ((-L.ad a) ^ k *ᵥ b)) ((∑' k, bc k • x ^ k) (T b)) := by
    intro b
    have e1 := (hs.of_norm.hasSum).mapL (ContinuousLinearMap.apply ℝ E (T b))
    refine e1.congr_fun fun k => ?_
    change _ = (bc k • x ^ k) (T b)
    rw [ContinuousLinearMap.smul_apply, adOp_pow]
  have hu : IsUnit (L.drExp a) := by
    rw [← Matrix.mulVec_injective_iff_isUnit]
    intro b c hbc
    have e : ∀ b, (∑' k, bc k • x ^ k) (T (L.drExp a *ᵥ b)) = T b := by
      intro b
      rw [← hD, ← ContinuousLinearMap.mul_apply, h1]; rfl
    apply T.injective
    rw [← e b, ← e c]
    exact congrArg (fun v => (∑' k, bc k • x ^ k) (T v)) hbc
  have hu' := (Matrix.isUnit_iff_isUnit_det _).1 hu
  refine ⟨hu', fun b => ?_⟩
  have e : T (L.drExpinv a *ᵥ b) = (∑' k, bc k • x ^ k) (T b) := by
    have e1 : L.drExp a *ᵥ T.symm ((∑' k, bc k • x ^ k) (T b)) = b := by
      apply T.injective
      rw [← hD, T.apply_symm_apply, ← ContinuousLinearMap.mul_apply, h2]; rfl
    rw [h.drExpinv a hu', ← T.apply_symm_apply ((∑' k, bc k • x ^ k) (T b))]
    congr 1
    conv_lhs => rw [← e1]
    rw [Matrix.mulVec_mulVec, Matrix.nonsing_inv_mul _ hu', Matrix.one_mulVec]
  rw [e]
  exact hG b

theorem truncInv_eq (L : LieOps X ℝ n) (a b : Fin n → ℝ) : truncInv L a *ᵥ b = ∑ k ∈ Finset.range 24, bc k • ((-L.ad a) ^ k *ᵥ b) := by
  have e : ∀ k : ℕ, bc k • ((-L.ad a) ^ k *ᵥ b) = ((((bernoulli k : ℚ) : ℝ) * (-1) ^ k / k.factorial) • L.ad a ^ k) *ᵥ b := by
    intro k
    rw [← neg_one_smul ℝ (L.ad a), smul_pow, Matrix.smul_mulVec, Matrix.smul_mulVec, smul_smul, bc]
    congr 1
    ring
  rw [Finset.sum_range_succ, bc_odd (by decide) (by norm_num), zero_smul, add_zero, truncInv, Finset.sum_congr rfl fun k _ => e k, Matrix.sum_mulVec]

/-- Nilpotent `ad(a)`: the series of the code ends with the last term. -/
theorem drExpinv_nilpotent (h : IsLie L mat hat) (a : Fin n → ℝ) (h0 : L.ad a ^ 24 = 0) :
    IsUnit (L.drExp a).det ∧ L.drExpinv a = truncInv L a := by
  have hz : ∀ k, 24 ≤ k → (-L.ad a) ^ k = 0 := by
    intro k hk
    rw [← neg_one_smul ℝ (L.ad a), smul_pow, ← Nat.add_sub_cancel' hk, pow_add (L.ad a), h0, zero_mul, smul_zero]
  have hz' : ∀ k, 24 ≤ k → adOp L (LinearEquiv.refl ℝ _) a ^ k = 0 := by
    intro k hk
    ext1 b
    have := adOp_pow (L := L) (LinearEquiv.refl ℝ _) a b k
    rw [hz k hk, Matrix.zero_mulVec] at this
    exact this
  obtain ⟨h1, h2⟩ := drExpinv_series h (LinearEquiv.refl ℝ _) a
    (summable_of_ne_finset_zero (s := Finset.range 24) fun k hk => by
      rw [hz' k (by simpa using hk), smul_zero, norm_zero])
  refine ⟨h1, ?_⟩
  rw [← Matrix.mulVec_injective.eq_iff]
  funext b
  have h3 := h2 b
  have h4 := hasSum_sum_of_ne_finset_zero (L := SummationFilter.unconditional ℕ) (f := fun k => bc k • (LinearEquiv.refl ℝ (Fin n → ℝ)) ((-L.ad a) ^ k *ᵥ b)) (s := Finset.range 24)
    (fun k hk => by rw [hz k (by simpa using hk), Matrix.zero_mulVec, map_zero, smul_zero])
  rw [truncInv_eq]
  exact HasSum.unique (L := SummationFilter.unconditional ℕ) h3 h4

/-- `ad(a)` smaller than `2π` in some norm: the series converges, with this error after the terms of the code. -/
theorem drExpinv_small [FiniteDimensional ℝ E] (h : IsLie L mat hat) (T : (Fin n → ℝ) ≃ₗ[ℝ] E) (a : Fin n → ℝ) {r : ℝ} (hr0 : 0 ≤ r)
    (hr : ∀ v, ‖T (L.ad a *ᵥ v)‖ ≤ r * ‖T v‖) (hr2 : r < 2 * Real.pi) :
    IsUnit (L.drExp a).det ∧
      (∀ b, HasSum (fun k => (((bernoulli k : ℚ) : ℝ) * (-1) ^ k / k.factorial) • (L.ad a ^ k *ᵥ b)) (L.drExpinv a *ᵥ b)) ∧
      ∀ b, ‖T (L.drExpinv a *ᵥ b - truncInv L a *ᵥ b)‖ ≤ 4 * (r / (2 * Real.pi)) ^ 24 / (1 - r / (2 * Real.pi)) * ‖T b‖ := by
  have hpi := Real.pi_pos
  set ρ := r / (2 * Real.pi) with hρ
  have hρ0 : 0 ≤ ρ := by positivity
  have hρ1 : ρ < 1 := by rw [hρ, div_lt_one (by positivity)]; exact hr2
  have hx : ‖adOp L T a‖ ≤ r := by
    refine ContinuousLinearMap.opNorm_le_bound _ hr0 fun v => ?_
    have := hr (T.symm v)
    rw [T.apply_symm_apply] at this
    refine le_trans (le_of_eq ?_) this
    change ‖T ((-L.ad a) *ᵥ T.symm v)‖ = _
    rw [Matrix.neg_mulVec, map_neg, norm_neg]
  have hxk : ∀ k, ‖adOp L T a ^ k‖ ≤ r ^ k := by
    intro k
    induction k with
    | zero => rw [pow_zero, pow_zero]; exact ContinuousLinearMap.norm_id_le
    | succ k ih =>
      rw [pow_succ, pow_succ]
      exact le_trans (norm_mul_le _ _) (mul_le_mul ih hx (norm_nonneg _) (by positivity))
  have hb : ∀ k, 2 ≤ k → ‖bc k • adOp L T a ^ k‖ ≤ 4 * ρ ^ k := by
    intro k hk
    rw [norm_smul, Real.norm_eq_abs]
    refine le_trans (mul_le_mul (abs_bc_le hk) (hxk k) (norm_nonneg _) (by positivity)) (le_of_eq ?_)
    rw [hρ, div_pow]
    ring
  have hs : Summable fun k => ‖bc k • adOp L T a ^ k‖ := by
    rw [← summable_nat_add_iff 2]
    refine Summable.of_nonneg_of_le (fun _ => norm_nonneg _) (fun k => hb (k + 2) (by omega)) ?_
    exact ((summable_nat_add_iff 2).2 (summable_geometric_of_lt_one hρ0 hρ1)).mul_left 4
  obtain ⟨h1, h2⟩ := drExpinv_series h T a hs
  refine ⟨h1, fun b => ?_, fun b => ?_⟩
  · have e := (h2 b).mapL T.symm.toLinearMap.toContinuousLinearMap
    change HasSum _ (T.symm (T (L.drExpinv a *ᵥ b))) at e
    rw [T.symm_apply_apply] at e
    refine e.congr_fun fun k => ?_
    change _ = T.symm (bc k • T _)
    rw [map_smul, T.symm_apply_apply, ← neg_one_smul ℝ (L.ad a), smul_pow, Matrix.smul_mulVec, smul_smul, bc]
    congr 1
    ring
  · have e := (hasSum_nat_add_iff' 24).2 (h2 b)
    have e2 : T (L.drExpinv a *ᵥ b) - ∑ i ∈ Finset.range 24, bc i • T ((-L.ad a) ^ i *ᵥ b) = T (L.drExpinv a *ᵥ b - truncInv L a *ᵥ b) := by
      rw [truncInv_eq, map_sub, map_sum]
      simp only [map_smul]
    rw [e2] at e
    have g : HasSum (fun k => 4 * ρ ^ (k + 24) * ‖T b‖) (4 * ρ ^ 24 / (1 - ρ) * ‖T b‖) := by
      have := ((hasSum_geometric_of_lt_one hρ0 hρ1).mul_left (4 * ρ ^ 24)).mul_right ‖T b‖
      rw [← div_eq_mul_inv] at this
      refine this.congr_fun fun k => ?_
      rw [pow_add]; ring
    refine e.norm_le_of_bounded g fun k => ?_
    rw [← adOp_pow, ← ContinuousLinearMap.smul_apply]
    exact le_trans (ContinuousLinearMap.le_opNorm _ _) (mul_le_mul_of_nonneg_right (hb _ (by omega)) (norm_nonneg _))

end Verif.Lie
