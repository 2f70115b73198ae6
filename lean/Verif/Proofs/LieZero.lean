import Verif.Proofs.LieSeries
import Verif.Props.LieExamples
import Mathlib.Analysis.Calculus.FDeriv.Symmetric
import Mathlib.Topology.Instances.Matrix

/-! # First derivatives of `dr_exp` and of its inverse at zero -/

set_option linter.unusedSectionVars false

namespace Verif.Lie

open scoped Matrix Topology
open Filter

variable {X 𝔸 : Type*} {n : ℕ} [NormedRing 𝔸] [NormedAlgebra ℝ 𝔸] [FiniteDimensional ℝ 𝔸] [CompleteSpace 𝔸]
  {L : LieOps X ℝ n} {mat : X → 𝔸} {hat : (Fin n → ℝ) →ₗ[ℝ] 𝔸}

theorem IsLie.rplus_zero_mat (h : IsLie L mat hat) (x : X) : mat (L.rplus x 0) = mat x := by
  rw [h.rplus, map_zero, NormedSpace.exp_zero, mul_one]

/-- Elements with the same matrix differ by `⊕ 0`. -/
theorem IsLie.eq_rplus_zero (h : IsLie L mat hat) {x z : X} (hxz : mat z = mat x) : z = L.rplus x 0 := by
  obtain ⟨g, G, h1, -, -⟩ := h.local_log 0 (by rw [h.drExp_zero]; simp)
  obtain ⟨ε, hε, hb⟩ := Metric.eventually_nhds_iff.1 h1
  obtain ⟨δ, hδ, hc⟩ := h.chart x ε hε
  obtain ⟨a, ha, e⟩ := hc z (by rw [hxz]; simpa using hδ)
  obtain ⟨y, hy, -⟩ := h.exists_inv x
  have e1 : NormedSpace.exp (hat a) = 1 := by
    have e2 := congrArg mat e
    rw [h.rplus, hxz] at e2
    have := congrArg (fun z => y * z) e2
    simp only [← mul_assoc, hy, one_mul] at this
    exact this.symm
  have g1 := hb (y := a) (by simpa using ha)
  have g0 := hb (y := 0) (by simpa using hε)
  rw [e1] at g1
  rw [map_zero, NormedSpace.exp_zero] at g0
  rw [g1] at g0
  rw [← g0]
  exact e

/-- `x ⊕ 0 = x`. -/
theorem IsLie.rplus_zero (h : IsLie L mat hat) (x : X) : L.rplus x 0 = x := (h.eq_rplus_zero rfl).symm

/-- An element is determined by its matrix. -/
theorem IsLie.mat_inj (h : IsLie L mat hat) {x z : X} (hxz : mat z = mat x) : z = x := (h.eq_rplus_zero hxz).trans (h.rplus_zero x)

/-- `(x ⊕ a) ⊕ (-a) = x`. -/
theorem IsLie.rplus_neg (h : IsLie L mat hat) (x : X) (a : Fin n → ℝ) : L.rplus (L.rplus x a) (-a) = x :=
  h.mat_inj (by rw [h.rplus, h.rplus, map_neg, mul_assoc, exp_mul_neg, mul_one])

theorem IsLie.drExp_self (h : IsLie L mat hat) (b : Fin n → ℝ) (s : ℝ) : L.drExp (s • b) *ᵥ b = b := by
  obtain ⟨D, hD, hDb⟩ := h.drExp (s • b)
  have h1 : HasDerivAt (fun t : ℝ => t • b) b s := by simpa using (hasDerivAt_id s).smul_const b
  have h2 := hD.comp_hasDerivAt s h1
  have h3 := hasDerivAt_exp_smul_const (𝕂 := ℝ) (hat b) s
  have e : (fun t : ℝ => NormedSpace.exp (t • hat b)) = (fun a => NormedSpace.exp (hat a)) ∘ fun t : ℝ => t • b := by
    funext t; simp
  rw [e] at h3
  have h4 := h2.unique h3
  rw [hDb, map_smul] at h4
  have h5 := congrArg (fun z => NormedSpace.exp (-(s • hat b)) * z) h4
  simp only [← mul_assoc, exp_neg_mul, one_mul] at h5
  exact h.hat_inj h5

/-- The derivative of `dr_exp(·) b` at zero. -/
theorem IsLie.drExp_deriv_zero (h : IsLie L mat hat) : ∃ A : (Fin n → ℝ) → (Fin n → ℝ) →L[ℝ] (Fin n → ℝ),
    (∀ b, HasFDerivAt (fun a => L.drExp a *ᵥ b) (A b) 0) ∧ ∀ b c, A b c = -(1 / 2 : ℝ) • (L.ad c *ᵥ b) := by
  have hd : ∀ b, ∃ A : (Fin n → ℝ) →L[ℝ] (Fin n → ℝ), HasFDerivAt (fun a => L.drExp a *ᵥ b) A 0 := by
    intro b
    have : DifferentiableAt ℝ (fun a => L.drExp a *ᵥ b) 0 := by
      rw [differentiableAt_pi]
      intro k
      simp only [Matrix.mulVec, dotProduct]
      refine DifferentiableAt.fun_sum fun r _ => DifferentiableAt.mul_const ?_ _
      obtain ⟨D, hD, -⟩ := h.d2rExp 0 k r
      exact hD.differentiableAt
    exact ⟨_, this.hasFDerivAt⟩
  choose A hA using hd
  refine ⟨A, hA, fun b c => ?_⟩
  let hc : (Fin n → ℝ) →L[ℝ] 𝔸 := LinearMap.toContinuousLinearMap hat
  have hcv : ∀ v, hc v = hat v := fun v => rfl
  have hsm : ContDiff ℝ 2 (fun a : Fin n → ℝ => NormedSpace.exp (hat a)) := by
    have : ContDiff ℝ ⊤ (fun a : Fin n → ℝ => NormedSpace.exp (hc a)) := exp_contDiff.comp hc.contDiff
    exact this.of_le le_top
  set Φ : (Fin n → ℝ) → 𝔸 := fun a => NormedSpace.exp (hat a) with hΦ
  have hf1 : ∀ a b, fderiv ℝ Φ a b = Φ a * hat (L.drExp a *ᵥ b) := by
    intro a b
    obtain ⟨D, hD, hDb⟩ := h.drExp a
    rw [hD.fderiv, hDb]
  have hΦ0 : Φ 0 = 1 := by simp [hΦ]
  have hd0 : ∀ c, fderiv ℝ Φ 0 c = hat c := by
    intro c
    rw [hf1, hΦ0, h.drExp_zero, Matrix.one_mulVec, one_mul]
  have hf2 : ∀ b c, fderiv ℝ (fderiv ℝ Φ) 0 c b = hat c * hat b + hat (A b c) := by
    intro b c
    have hdd : DifferentiableAt ℝ (fderiv ℝ Φ) 0 := ((hsm.fderiv_right (m := 1) (by norm_num)).differentiable (by norm_num)) 0
    have e1 : fderiv ℝ (fun a => fderiv ℝ Φ a b) 0 c = fderiv ℝ (fderiv ℝ Φ) 0 c b := by
      rw [fderiv_clm_apply hdd (differentiableAt_const _)]
      simp
    rw [← e1]
    have e2 : (fun a => fderiv ℝ Φ a b) = fun a => Φ a * hc (L.drExp a *ᵥ b) := funext fun a => hf1 a b
    have d1 : HasFDerivAt Φ (fderiv ℝ Φ 0) 0 := ((hsm.differentiable (by norm_num)) 0).hasFDerivAt
    have d2 : HasFDerivAt (fun a => hc (L.drExp a *ᵥ b)) (hc.comp (A b)) 0 := hc.hasFDerivAt.comp 0 (hA b)
    have d3 : HasFDerivAt (fun a => Φ a * hc (L.drExp a *ᵥ b)) _ 0 := d1.mul' d2
    rw [e2, d3.fderiv]
    simp only [ContinuousLinearMap.add_apply, ContinuousLinearMap.smul_apply, ContinuousLinearMap.comp_apply, hΦ0, h.drExp_zero, Matrix.one_mulVec, hcv]
    simp only [one_smul, hd0, op_smul_eq_mul]
    rw [add_comm]
  have hsymm : hat c * hat b + hat (A b c) = hat b * hat c + hat (A c b) := by
    rw [← hf2, ← hf2]
    exact (hsm.contDiffAt.isSymmSndFDerivAt (by simp)).eq _ _
  have hself : ∀ b, A b b = 0 := by
    intro b
    have h1 : HasDerivAt (fun t : ℝ => t • b) b 0 := by simpa using (hasDerivAt_id (0 : ℝ)).smul_const b
    have h2 : HasFDerivAt (fun a => L.drExp a *ᵥ b) (A b) ((0 : ℝ) • b) := by rw [zero_smul]; exact hA b
    have h3 := h2.comp_hasDerivAt (0 : ℝ) h1
    have e : ((fun a => L.drExp a *ᵥ b) ∘ fun t : ℝ => t • b) = fun _ => b := funext fun t => h.drExp_self b t
    rw [e] at h3
    exact h3.unique (hasDerivAt_const _ _)
  have hadd : ∀ b b' c, A (b + b') c = A b c + A b' c := by
    intro b b' c
    have e : (fun a => L.drExp a *ᵥ (b + b')) = fun a => L.drExp a *ᵥ b + L.drExp a *ᵥ b' := funext fun a => Matrix.mulVec_add _ _ _
    have h1 := hA (b + b')
    rw [e] at h1
    rw [h1.unique ((hA b).add (hA b'))]; rfl
  have hanti : A c b = -A b c := by
    have h0 := hself (b + c)
    rw [hadd, map_add, map_add, hself, hself, zero_add, add_zero] at h0
    exact eq_neg_of_add_eq_zero_right h0
  rw [hanti, map_neg] at hsymm
  apply h.hat_inj
  rw [map_smul, h.ad]
  have h2 : (2 : ℝ) • hat (A b c) = hat b * hat c - hat c * hat b := by
    rw [two_smul]
    have := congrArg (fun z => z - hat c * hat b + hat (A b c)) hsymm
    rw [show hat c * hat b + hat (A b c) - hat c * hat b + hat (A b c) = hat (A b c) + hat (A b c) by abel] at this
    rw [this]; abel
  have h3 : hat (A b c) = (1 / 2 : ℝ) • ((2 : ℝ) • hat (A b c)) := by rw [smul_smul]; norm_num
  rw [h3, h2, neg_smul, ← smul_neg, neg_sub]

/-- `∂ dr_exp / ∂ a_c = - ad(e_c) / 2` at zero. -/
theorem IsLie.d2rExp_zero (h : IsLie L mat hat) (k r c : Fin n) : L.d2rExp 0 k r c = -(1 / 2) * L.ad (Pi.single c 1) k r := by
  obtain ⟨A, hA, hAv⟩ := h.drExp_deriv_zero
  obtain ⟨D, hD, hDc⟩ := h.d2rExp 0 k r
  have h1 := hasFDerivAt_pi'.1 (hA (Pi.single r 1)) k
  have e : (fun a => (L.drExp a *ᵥ Pi.single r 1) k) = fun a => L.drExp a k r := by
    funext a; rw [Matrix.mulVec_single_one]; rfl
  rw [e] at h1
  rw [← hDc, hD.unique h1]
  change A (Pi.single r 1) (Pi.single c 1) k = _
  rw [hAv, Matrix.mulVec_single_one]
  rfl

theorem IsLie.det_near_zero (h : IsLie L mat hat) : ∀ᶠ a in 𝓝 (0 : Fin n → ℝ), IsUnit (L.drExp a).det := by
  have hc : ContinuousAt (fun a => (L.drExp a).det) 0 := by
    have hM : ContinuousAt (fun a => L.drExp a) 0 := by
      refine continuousAt_pi.2 fun k => continuousAt_pi.2 fun r => ?_
      obtain ⟨D, hD, -⟩ := h.d2rExp 0 k r
      exact hD.continuousAt
    exact (Continuous.matrix_det (continuous_id (X := Matrix (Fin n) (Fin n) ℝ))).continuousAt.comp hM
  have h1 : (L.drExp 0).det ≠ 0 := by rw [h.drExp_zero]; simp
  filter_upwards [hc.eventually_ne h1] with a ha
  exact isUnit_iff_ne_zero.2 ha

theorem IsLie.drExpinv_zero (h : IsLie L mat hat) : L.drExpinv 0 = 1 := by
  rw [h.drExpinv 0 (by rw [h.drExp_zero]; simp), h.drExp_zero, inv_one]

/-- `∂ dr_expinv / ∂ a_c = ad(e_c) / 2` at zero. -/
theorem IsLie.d2rExpinv_zero (h : IsLie L mat hat) (k r c : Fin n) : L.d2rExpinv 0 k r c = 1 / 2 * L.ad (Pi.single c 1) k r := by
  have hu : IsUnit (L.drExp 0).det := by rw [h.drExp_zero]; simp
  choose D hD hDc using h.d2rExp 0
  choose E hE hEc using h.d2rExpinv 0 hu
  have hp : HasFDerivAt (fun a => ∑ j, L.drExp a k j * L.drExpinv a j r)
      (∑ j, (L.drExp 0 k j • E j r + L.drExpinv 0 j r • D k j)) 0 :=
    HasFDerivAt.fun_sum fun j _ => (hD k j).mul (hE j r)
  have hev : (fun a => ∑ j, L.drExp a k j * L.drExpinv a j r) =ᶠ[𝓝 0] fun _ => (1 : Matrix (Fin n) (Fin n) ℝ) k r := by
    filter_upwards [h.det_near_zero] with a ha
    have := congrFun (congrFun (Matrix.mul_nonsing_inv (L.drExp a) ha) k) r
    rw [← h.drExpinv a ha, Matrix.mul_apply] at this
    exact this
  have h0 := (hp.congr_of_eventuallyEq hev.symm).unique (hasFDerivAt_const _ _)
  have h1 := congrArg (fun T : (Fin n → ℝ) →L[ℝ] ℝ => T (Pi.single c 1)) h0
  simp only [ContinuousLinearMap.sum_apply, ContinuousLinearMap.add_apply, ContinuousLinearMap.smul_apply, ContinuousLinearMap.zero_apply,
    hDc, hEc, h.drExp_zero, h.drExpinv_zero, Matrix.one_apply, smul_eq_mul, ite_mul, one_mul, zero_mul, Finset.sum_add_distrib,
    Finset.sum_ite_eq, Finset.sum_ite_eq', Finset.mem_univ, if_true, h.d2rExp_zero] at h1
  linarith

end Verif.Lie
