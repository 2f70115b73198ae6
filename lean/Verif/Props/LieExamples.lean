import Verif.Proofs.Lie
import Mathlib.LinearAlgebra.Matrix.ToLin
import Mathlib.Analysis.Matrix.Normed
import Mathlib.Analysis.Calculus.ContDiff.Basic
import Mathlib.Analysis.Calculus.ContDiff.Operations
import Mathlib.Analysis.SpecialFunctions.Exponential

/-!
# Instances of the assumptions on Lie groups

The group of all units of a finite-dimensional algebra, for instance the invertible matrices or the nonzero quaternions, satisfies `IsLie`.
-/

namespace Verif.Lie

open scoped Matrix Topology
open Filter

set_option linter.unusedSectionVars false

variable {𝔸 : Type*} {n : ℕ} [NormedRing 𝔸] [NormedAlgebra ℝ 𝔸] [FiniteDimensional ℝ 𝔸] [CompleteSpace 𝔸]

/-- `exp(A)` as a unit. -/
noncomputable def expUnit (A : 𝔸) : 𝔸ˣ := ⟨NormedSpace.exp A, NormedSpace.exp (-A), exp_mul_neg A, exp_neg_mul A⟩

/-- Conjugation. -/
noncomputable def conj (x : 𝔸ˣ) : 𝔸 →ₗ[ℝ] 𝔸 := (LinearMap.mulLeft ℝ (x : 𝔸)) ∘ₗ (LinearMap.mulRight ℝ ((x⁻¹ : 𝔸ˣ) : 𝔸))

/-- The commutator. -/
noncomputable def comm (A : 𝔸) : 𝔸 →ₗ[ℝ] 𝔸 := LinearMap.mulLeft ℝ A - LinearMap.mulRight ℝ A

/-- The right derivative of the exponential. -/
noncomputable def drx (A : 𝔸) : 𝔸 →ₗ[ℝ] 𝔸 := (LinearMap.mulLeft ℝ (NormedSpace.exp (-A))) ∘ₗ (fderiv ℝ (NormedSpace.exp : 𝔸 → 𝔸) A : 𝔸 →ₗ[ℝ] 𝔸)

/-- The tangent space in coordinates. -/
noncomputable def glHat (b : Module.Basis (Fin n) ℝ 𝔸) : (Fin n → ℝ) →ₗ[ℝ] 𝔸 := b.equivFun.symm

noncomputable def glDr (b : Module.Basis (Fin n) ℝ 𝔸) (a : Fin n → ℝ) : Matrix (Fin n) (Fin n) ℝ := LinearMap.toMatrix b b (drx (glHat b a))

/-- The group of units. -/
noncomputable def gl (b : Module.Basis (Fin n) ℝ 𝔸) : LieOps 𝔸ˣ ℝ n where
  rplus x a := x * expUnit (glHat b a)
  exp a := expUnit (glHat b a)
  Ad x := LinearMap.toMatrix b b (conj x)
  ad a := LinearMap.toMatrix b b (comm (glHat b a))
  drExp a := glDr b a
  drExpinv a := (glDr b a)⁻¹
  d2rExp a := fun k r c => fderiv ℝ (fun a => glDr b a k r) a (Pi.single c 1)
  d2rExpinv a := fun k r c => fderiv ℝ (fun a => (glDr b a)⁻¹ k r) a (Pi.single c 1)
  gen i := LinearMap.toMatrix b b (comm (glHat b (Pi.single i 1)))

theorem glHat_mulVec (b : Module.Basis (Fin n) ℝ 𝔸) (T : 𝔸 →ₗ[ℝ] 𝔸) (v : Fin n → ℝ) :
    glHat b (LinearMap.toMatrix b b T *ᵥ v) = T (glHat b v) := by
  have h1 : v = b.repr (glHat b v) := by
    have := b.equivFun.apply_symm_apply v
    exact this.symm
  conv_lhs => rw [h1, LinearMap.toMatrix_mulVec_repr]
  exact b.equivFun.symm_apply_apply _

theorem exp_contDiff : ContDiff ℝ ⊤ (NormedSpace.exp : 𝔸 → 𝔸) :=
  contDiff_iff_contDiffAt.2 fun x => (NormedSpace.exp_analytic (𝕂 := ℝ) x).contDiffAt

theorem glDr_differentiable (b : Module.Basis (Fin n) ℝ 𝔸) (k r : Fin n) : Differentiable ℝ fun a => glDr b a k r := by
  have e : (fun a => glDr b a k r) = fun a => b.equivFun (NormedSpace.exp (-glHat b a) * fderiv ℝ (NormedSpace.exp : 𝔸 → 𝔸) (glHat b a) (b r)) k := by
    funext a
    unfold glDr
    rw [LinearMap.toMatrix_apply]
    rfl
  rw [e]
  have hh : Differentiable ℝ (glHat b) := (LinearMap.toContinuousLinearMap (glHat b)).differentiable
  have h1 : Differentiable ℝ fun a => NormedSpace.exp (-glHat b a) := (exp_contDiff.differentiable (by simp)).comp hh.neg
  have h2 : Differentiable ℝ fun a => fderiv ℝ (NormedSpace.exp : 𝔸 → 𝔸) (glHat b a) (b r) := by
    have : Differentiable ℝ (fderiv ℝ (NormedSpace.exp : 𝔸 → 𝔸)) := by
      have := (exp_contDiff (𝔸 := 𝔸)).fderiv_right (m := 1) (by simp)
      exact this.differentiable (by simp)
    exact (this.comp hh).clm_apply (differentiable_const _)
  have h3 := (LinearMap.toContinuousLinearMap (b.equivFun : 𝔸 →ₗ[ℝ] (Fin n → ℝ))).differentiable.comp (h1.mul h2)
  exact differentiable_pi.1 h3 k

attribute [local instance] Matrix.linftyOpNormedRing Matrix.linftyOpNormedAlgebra Matrix.linftyOpNormedSpace Matrix.linftyOpNormedAddCommGroup in
theorem inv_differentiable {Z : Type*} [NormedAddCommGroup Z] [NormedSpace ℝ Z] {A : Z → Matrix (Fin n) (Fin n) ℝ} {z : Z}
    (hA : ∀ k r, DifferentiableAt ℝ (fun z => A z k r) z) (hu : IsUnit (A z).det) (k r : Fin n) : DifferentiableAt ℝ (fun z => (A z)⁻¹ k r) z := by
  have h0 : DifferentiableAt ℝ A z := by
    have e : A = fun z => ∑ k, ∑ r, A z k r • Matrix.single k r (1 : ℝ) := by
      funext z
      conv_lhs => rw [Matrix.matrix_eq_sum_single (A z)]
      refine Finset.sum_congr rfl fun i _ => Finset.sum_congr rfl fun j _ => ?_
      rw [Matrix.smul_single, smul_eq_mul, mul_one]
    rw [e]
    refine DifferentiableAt.fun_sum fun i _ => DifferentiableAt.fun_sum fun j _ => ?_
    exact (hA i j).smul_const _
  obtain ⟨u, hu'⟩ := (Matrix.isUnit_iff_isUnit_det _).2 hu
  have h1 : DifferentiableAt ℝ (fun z => (A z)⁻¹) z := by
    have e : (fun z => (A z)⁻¹) = fun z => Ring.inverse (A z) := funext fun z => Matrix.nonsing_inv_eq_ringInverse _
    rw [e]
    have hi : DifferentiableAt ℝ (Ring.inverse : Matrix (Fin n) (Fin n) ℝ → _) (A z) := by
      rw [← hu']
      exact (hasFDerivAt_ringInverse u).differentiableAt
    exact hi.comp z h0
  have h2 : Differentiable ℝ (fun M : Matrix (Fin n) (Fin n) ℝ => M k r) :=
    (LinearMap.toContinuousLinearMap (Matrix.entryLinearMap ℝ ℝ k r)).differentiable
  exact (h2 _).comp z h1

/-- **The units of a finite-dimensional algebra are a Lie group in the sense of `IsLie`.** -/
theorem gl_isLie (b : Module.Basis (Fin n) ℝ 𝔸) : IsLie (gl b) (fun x : 𝔸ˣ => (x : 𝔸)) (glHat b) where
  hat_inj := b.equivFun.symm.injective
  unit x := x.isUnit
  rplus x a := rfl
  exp a := rfl
  chart := by
    intro x ε hε
    have hs : HasStrictFDerivAt (NormedSpace.exp : 𝔸 → 𝔸) (ContinuousLinearEquiv.refl ℝ 𝔸 : 𝔸 →L[ℝ] 𝔸) 0 := by
      have := hasStrictFDerivAt_exp_zero (𝕂 := ℝ) (𝔸 := 𝔸)
      exact this
    have hb : Continuous b.equivFun := (LinearMap.toContinuousLinearMap (b.equivFun : 𝔸 →ₗ[ℝ] (Fin n → ℝ))).continuous
    have ho : IsOpen (b.equivFun ⁻¹' Metric.ball 0 ε) := Metric.isOpen_ball.preimage hb
    have hn : b.equivFun ⁻¹' Metric.ball 0 ε ∈ 𝓝 (0 : 𝔸) := ho.mem_nhds (by simpa using hε)
    have hm := hs.map_nhds_eq_of_equiv
    have h1 : (NormedSpace.exp : 𝔸 → 𝔸) '' (b.equivFun ⁻¹' Metric.ball 0 ε) ∈ 𝓝 (1 : 𝔸) := by
      rw [← NormedSpace.exp_zero (𝔸 := 𝔸), ← hm]
      exact image_mem_map hn
    have hc : Tendsto (fun y : 𝔸 => ((x⁻¹ : 𝔸ˣ) : 𝔸) * y) (𝓝 (x : 𝔸)) (𝓝 1) := by
      have : ContinuousAt (fun y : 𝔸 => ((x⁻¹ : 𝔸ˣ) : 𝔸) * y) (x : 𝔸) := by fun_prop
      have h := this.tendsto
      simpa using h
    obtain ⟨δ, hδ, hball⟩ := Metric.mem_nhds_iff.1 (hc h1)
    refine ⟨δ, hδ, fun y hy => ?_⟩
    obtain ⟨A, hA, e⟩ := hball (show (y : 𝔸) ∈ Metric.ball (x : 𝔸) δ by rwa [Metric.mem_ball, dist_eq_norm])
    refine ⟨b.equivFun A, by simpa using hA, ?_⟩
    apply Units.ext
    change (y : 𝔸) = x * NormedSpace.exp (b.equivFun.symm (b.equivFun A))
    rw [LinearEquiv.symm_apply_apply, e, Units.mul_inv_cancel_left]
  Ad x v := by
    change glHat b (LinearMap.toMatrix b b (conj x) *ᵥ v) * _ = _
    rw [glHat_mulVec]
    change (x : 𝔸) * (glHat b v * ((x⁻¹ : 𝔸ˣ) : 𝔸)) * x = _
    rw [mul_assoc, mul_assoc, Units.inv_mul, mul_one]
  ad a c := by
    change glHat b (LinearMap.toMatrix b b (comm _) *ᵥ c) = _
    rw [glHat_mulVec]
    rfl
  gen a := by
    change LinearMap.toMatrix b b (comm (glHat b a)) = ∑ i, a i • LinearMap.toMatrix b b (comm (glHat b (Pi.single i 1)))
    have e : comm (glHat b a) = ∑ i, a i • comm (glHat b (Pi.single i 1)) := by
      have ea : a = ∑ i, a i • (Pi.single i 1 : Fin n → ℝ) := by
        funext j
        simp [Finset.sum_apply, Pi.single_apply]
      ext c
      conv_lhs => rw [ea]
      simp only [comm, map_sum, map_smul, LinearMap.sub_apply, LinearMap.mulLeft_apply, LinearMap.mulRight_apply, LinearMap.sum_apply,
        LinearMap.smul_apply, Finset.sum_mul, Finset.mul_sum, smul_sub, Finset.sum_sub_distrib, smul_mul_assoc, mul_smul_comm]
    rw [e, map_sum]
    simp only [map_smul]
  drExp a := by
    have h1 : HasFDerivAt (NormedSpace.exp : 𝔸 → 𝔸) (fderiv ℝ NormedSpace.exp (glHat b a)) (glHat b a) :=
      (exp_contDiff.differentiable (by simp) _).hasFDerivAt
    refine ⟨_, h1.comp a (LinearMap.toContinuousLinearMap (glHat b)).hasFDerivAt, fun c => ?_⟩
    change _ = _ * glHat b (LinearMap.toMatrix b b (drx (glHat b a)) *ᵥ c)
    rw [glHat_mulVec]
    change _ = NormedSpace.exp (glHat b a) * (NormedSpace.exp (-glHat b a) * fderiv ℝ NormedSpace.exp (glHat b a) (glHat b c))
    rw [← mul_assoc, exp_mul_neg, one_mul]
    rfl
  drExpinv a _ := rfl
  d2rExp a k r := ⟨_, (glDr_differentiable b k r a).hasFDerivAt, fun c => rfl⟩
  d2rExpinv a hu k r := ⟨_, (inv_differentiable (A := glDr b) (fun k r => glDr_differentiable b k r a) hu k r).hasFDerivAt, fun c => rfl⟩

/-- A non-commutative instance: the invertible 2 by 2 matrices. -/
noncomputable def gl2Basis : Module.Basis (Fin 4) ℝ (Matrix (Fin 2) (Fin 2) ℝ) :=
  (Matrix.stdBasis ℝ (Fin 2) (Fin 2)).reindex finProdFinEquiv

attribute [local instance] Matrix.linftyOpNormedRing Matrix.linftyOpNormedAlgebra Matrix.linftyOpNormedSpace Matrix.linftyOpNormedAddCommGroup in
example : IsLie (gl gl2Basis) (fun x : (Matrix (Fin 2) (Fin 2) ℝ)ˣ => (x : Matrix (Fin 2) (Fin 2) ℝ)) (glHat gl2Basis) := gl_isLie gl2Basis

end Verif.Lie
