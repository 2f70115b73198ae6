import Verif.Spec.Lie
import Mathlib.Analysis.Calculus.InverseFunctionTheorem.FDeriv
import Mathlib.Analysis.Calculus.FDeriv.Analytic
import Mathlib.Analysis.Calculus.FDeriv.Mul
import Mathlib.Analysis.Calculus.Deriv.Mul
import Mathlib.Analysis.Calculus.Deriv.Comp
import Mathlib.Analysis.SpecialFunctions.Exponential
import Mathlib.Tactic.NoncommRing

/-! # Calculus on matrix Lie groups -/

namespace Verif.Lie

open scoped Matrix Topology
open Filter

set_option linter.unusedSectionVars false

variable {X 𝔸 : Type*} {n : ℕ} [NormedRing 𝔸] [NormedAlgebra ℝ 𝔸] [FiniteDimensional ℝ 𝔸] {L : LieOps X ℝ n} {mat : X → 𝔸}
  {hat : (Fin n → ℝ) →ₗ[ℝ] 𝔸}

theorem exp_neg_mul [CompleteSpace 𝔸] (x : 𝔸) : NormedSpace.exp (-x) * NormedSpace.exp x = 1 := by
  letI : NormedAlgebra ℚ 𝔸 := NormedAlgebra.restrictScalars ℚ ℝ 𝔸
  rw [← NormedSpace.exp_add_of_commute (Commute.neg_left rfl), neg_add_cancel, NormedSpace.exp_zero]

theorem exp_mul_neg [CompleteSpace 𝔸] (x : 𝔸) : NormedSpace.exp x * NormedSpace.exp (-x) = 1 := by
  have := exp_neg_mul (-x)
  rwa [neg_neg] at this

/-- A left inverse of `hat`. -/
theorem IsLie.exists_vee (h : IsLie L mat hat) : ∃ V : 𝔸 →L[ℝ] (Fin n → ℝ), ∀ a, V (hat a) = a := by
  obtain ⟨V, hV⟩ := hat.exists_leftInverse_of_injective (LinearMap.ker_eq_bot.2 h.hat_inj)
  exact ⟨LinearMap.toContinuousLinearMap V, fun a => LinearMap.congr_fun hV a⟩

theorem IsLie.hat_Ad_exp [CompleteSpace 𝔸] (h : IsLie L mat hat) (a v : Fin n → ℝ) :
    hat (L.Ad (L.exp (-a)) *ᵥ v) = NormedSpace.exp (-hat a) * hat v * NormedSpace.exp (hat a) := by
  have := h.Ad (L.exp (-a)) v
  rw [h.exp, map_neg] at this
  rw [← this, mul_assoc, exp_neg_mul, mul_one]

/-- **The key identity.** `dr_exp(a) ad(a) = 1 - Ad(exp(-a))`. -/
theorem IsLie.drExp_ad [CompleteSpace 𝔸] (h : IsLie L mat hat) (a b : Fin n → ℝ) :
    L.drExp a *ᵥ (L.ad a *ᵥ b) = b - L.Ad (L.exp (-a)) *ᵥ b := by
  obtain ⟨V, hV⟩ := h.exists_vee
  obtain ⟨D, hD, hDb⟩ := h.drExp a
  -- the curve of conjugates
  have hb : HasDerivAt (fun s : ℝ => NormedSpace.exp (s • hat b)) (hat b) 0 := by
    have := hasDerivAt_exp_smul_const (𝕂 := ℝ) (hat b) 0
    simpa using this
  have hnb : HasDerivAt (fun s : ℝ => NormedSpace.exp (-(s • hat b))) (-hat b) 0 := by
    have := hasDerivAt_exp_smul_const (𝕂 := ℝ) (-hat b) 0
    simpa using this
  let γ : ℝ → Fin n → ℝ := fun s => L.Ad (L.exp (-(s • b))) *ᵥ a
  have hγ : ∀ s, hat (γ s) = NormedSpace.exp (-(s • hat b)) * hat a * NormedSpace.exp (s • hat b) := by
    intro s
    rw [h.hat_Ad_exp, map_smul]
  have dγh : HasDerivAt (fun s => hat (γ s)) (hat (L.ad a *ᵥ b)) 0 := by
    have := (hnb.mul_const (hat a)).mul hb
    simp only [zero_smul, neg_zero, NormedSpace.exp_zero, one_mul, mul_one] at this
    have e : (fun s => hat (γ s)) = fun s : ℝ => NormedSpace.exp (-(s • hat b)) * hat a * NormedSpace.exp (s • hat b) := funext hγ
    rw [e, h.ad, show hat a * hat b - hat b * hat a = -hat b * hat a + hat a * hat b by noncomm_ring]
    exact this
  have dγ : HasDerivAt γ (L.ad a *ᵥ b) 0 := by
    have := V.hasFDerivAt.comp_hasDerivAt (0 : ℝ) dγh
    have e : (V ∘ fun s => hat (γ s)) = γ := funext fun s => hV _
    rwa [e, hV] at this
  have γ0 : γ 0 = a := by
    have : hat (γ 0) = hat a := by rw [hγ]; simp
    exact h.hat_inj this
  have d1 : HasDerivAt (fun s => NormedSpace.exp (hat (γ s))) (D (L.ad a *ᵥ b)) 0 := by
    have hD' : HasFDerivAt (fun a => NormedSpace.exp (hat a)) D (γ 0) := by rw [γ0]; exact hD
    exact hD'.comp_hasDerivAt (0 : ℝ) dγ
  have conj : ∀ s : ℝ, NormedSpace.exp (hat (γ s)) = NormedSpace.exp (-(s • hat b)) * NormedSpace.exp (hat a) * NormedSpace.exp (s • hat b) := by
    intro s
    letI : NormedAlgebra ℚ 𝔸 := NormedAlgebra.restrictScalars ℚ ℝ 𝔸
    let y : 𝔸ˣ := ⟨NormedSpace.exp (s • hat b), NormedSpace.exp (-(s • hat b)), exp_mul_neg _, exp_neg_mul _⟩
    rw [hγ]
    exact NormedSpace.exp_units_conj' y (hat a)
  have d2 : HasDerivAt (fun s => NormedSpace.exp (hat (γ s))) (NormedSpace.exp (hat a) * hat b - hat b * NormedSpace.exp (hat a)) 0 := by
    have := (hnb.mul_const (NormedSpace.exp (hat a))).mul hb
    simp only [zero_smul, neg_zero, NormedSpace.exp_zero, one_mul, mul_one] at this
    have e : (fun s => NormedSpace.exp (hat (γ s))) = fun s : ℝ => NormedSpace.exp (-(s • hat b)) * NormedSpace.exp (hat a) * NormedSpace.exp (s • hat b) :=
      funext conj
    rw [e, show NormedSpace.exp (hat a) * hat b - hat b * NormedSpace.exp (hat a) = -hat b * NormedSpace.exp (hat a) + NormedSpace.exp (hat a) * hat b by
      noncomm_ring]
    exact this
  have key := d1.unique d2
  rw [hDb] at key
  apply h.hat_inj
  rw [map_sub, h.hat_Ad_exp]
  calc hat (L.drExp a *ᵥ L.ad a *ᵥ b) = NormedSpace.exp (-hat a) * (NormedSpace.exp (hat a) * hat (L.drExp a *ᵥ L.ad a *ᵥ b)) := by
        rw [← mul_assoc, exp_neg_mul, one_mul]
    _ = hat b - NormedSpace.exp (-hat a) * hat b * NormedSpace.exp (hat a) := by
        rw [key, mul_sub, ← mul_assoc, exp_neg_mul, one_mul, mul_assoc]

theorem IsLie.drExp_unique [CompleteSpace 𝔸] (h : IsLie L mat hat) {a : Fin n → ℝ} {D : (Fin n → ℝ) →L[ℝ] 𝔸}
    (hD : HasFDerivAt (fun a => NormedSpace.exp (hat a)) D a) (b : Fin n → ℝ) : D b = NormedSpace.exp (hat a) * hat (L.drExp a *ᵥ b) := by
  obtain ⟨D', hD', hb⟩ := h.drExp a
  rw [hD.unique hD', hb]

/-- The inverse of a group element. -/
theorem IsLie.exists_inv (h : IsLie L mat hat) (x : X) : ∃ y : 𝔸, y * mat x = 1 ∧ mat x * y = 1 := by
  obtain ⟨u, hu⟩ := h.unit x
  exact ⟨↑u⁻¹, by rw [← hu]; exact u.inv_mul, by rw [← hu]; exact u.mul_inv⟩

theorem IsLie.vel_unique (h : IsLie L mat hat) {x : ℝ → X} {v w : Fin n → ℝ} {S : Set ℝ} {t : ℝ} (hS : UniqueDiffWithinAt ℝ S t)
    (hv : HasVel mat hat x v S t) (hw : HasVel mat hat x w S t) : v = w := by
  obtain ⟨y, hy, -⟩ := h.exists_inv (x t)
  have := hS.eq_deriv _ hv hw
  apply h.hat_inj
  rw [← one_mul (hat v), ← one_mul (hat w), ← hy, mul_assoc, mul_assoc, this]

theorem hasVel_iff {x : ℝ → X} {v : Fin n → ℝ} {S : Set ℝ} {t : ℝ} :
    HasVel mat hat x v S t ↔ HasRd mat hat x ((ContinuousLinearMap.id ℝ ℝ).smulRight v) S t := by
  constructor
  · intro h
    refine ⟨_, h.hasFDerivWithinAt, fun w => ?_⟩
    simp
  · rintro ⟨M, hM, e⟩
    have := hM.hasDerivWithinAt
    rw [e] at this
    simpa [HasVel] using this

section

variable {Z : Type*} [NormedAddCommGroup Z] [NormedSpace ℝ Z]

/-- **The right derivative of `xl ⊕ e`.** -/
theorem IsLie.rd_rplus [CompleteSpace 𝔸] (h : IsLie L mat hat) {xl : Z → X} {Dx : Z →L[ℝ] (Fin n → ℝ)} {e : Z → Fin n → ℝ}
    {De : Z →L[ℝ] (Fin n → ℝ)} {S : Set Z} {z : Z} (hx : HasRd mat hat xl Dx S z) (he : HasFDerivWithinAt e De S z) :
    HasRd mat hat (fun s => L.rplus (xl s) (e s))
      ((Matrix.mulVecLin (L.Ad (L.exp (-e z)))).toContinuousLinearMap.comp Dx + (Matrix.mulVecLin (L.drExp (e z))).toContinuousLinearMap.comp De) S z := by
  obtain ⟨M, hM, hMb⟩ := hx
  obtain ⟨D, hD, hDb⟩ := h.drExp (e z)
  have d1 : HasFDerivWithinAt (fun s => NormedSpace.exp (hat (e s))) (D.comp De) S z := hD.comp_hasFDerivWithinAt z he
  have e1 : (fun s => mat (L.rplus (xl s) (e s))) = fun s => mat (xl s) * NormedSpace.exp (hat (e s)) := funext fun s => h.rplus _ _
  refine ⟨_, by rw [e1]; exact hM.mul' d1, fun w => ?_⟩
  simp only [ContinuousLinearMap.add_apply, ContinuousLinearMap.smul_apply, ContinuousLinearMap.comp_apply,
    LinearMap.coe_toContinuousLinearMap', Matrix.mulVecLin_apply, smul_eq_mul, MulOpposite.smul_eq_mul_unop, MulOpposite.unop_op]
  rw [h.rplus, map_add, h.hat_Ad_exp, hDb, hMb, mul_add, add_comm]
  congr 1
  · simp only [mul_assoc]
    rw [← mul_assoc (NormedSpace.exp (hat (e z))), exp_mul_neg, one_mul]
  · simp only [mul_assoc]

end

/-- **The velocity of `xl ⊕ e`.** -/
theorem IsLie.vel_rplus [CompleteSpace 𝔸] (h : IsLie L mat hat) {xl : ℝ → X} {dxl : Fin n → ℝ} {e : ℝ → Fin n → ℝ} {de : Fin n → ℝ} {S : Set ℝ} {t : ℝ}
    (hx : HasVel mat hat xl dxl S t) (he : HasDerivWithinAt e de S t) :
    HasVel mat hat (fun s => L.rplus (xl s) (e s)) (L.Ad (L.exp (-e t)) *ᵥ dxl + L.drExp (e t) *ᵥ de) S t := by
  have := h.rd_rplus (hasVel_iff.1 hx) he.hasFDerivWithinAt
  rw [hasVel_iff]
  convert this using 1
  ext1
  simp

/-- The exponential map near a regular point has a smooth left inverse. -/
theorem IsLie.local_log [CompleteSpace 𝔸] (h : IsLie L mat hat) (a : Fin n → ℝ) (ha : IsUnit (L.drExp a).det) :
    ∃ g : 𝔸 → Fin n → ℝ, ∃ G : 𝔸 →L[ℝ] (Fin n → ℝ), (∀ᶠ b in 𝓝 a, g (NormedSpace.exp (hat b)) = b) ∧
      HasFDerivAt g G (NormedSpace.exp (hat a)) ∧ ∀ b, G (NormedSpace.exp (hat a) * hat (L.drExp a *ᵥ b)) = b := by
  let φ : (Fin n → ℝ) → 𝔸 := fun a => NormedSpace.exp (hat a)
  have hs : ∃ D : (Fin n → ℝ) →L[ℝ] 𝔸, HasStrictFDerivAt φ D a := by
    have h1 : HasStrictFDerivAt (𝕜 := ℝ) (NormedSpace.exp : 𝔸 → 𝔸) _ (hat a) := (NormedSpace.exp_analytic (𝕂 := ℝ) (hat a)).hasStrictFDerivAt
    exact ⟨_, h1.comp a (LinearMap.toContinuousLinearMap hat).hasStrictFDerivAt⟩
  obtain ⟨D, hD⟩ := hs
  have hDb := h.drExp_unique hD.hasFDerivAt
  have hinj : Function.Injective D := by
    intro b c hbc
    rw [hDb, hDb] at hbc
    have : hat (L.drExp a *ᵥ b) = hat (L.drExp a *ᵥ c) := by
      have := congrArg (fun z => NormedSpace.exp (-hat a) * z) hbc
      simpa only [← mul_assoc, exp_neg_mul, one_mul] using this
    have := h.hat_inj this
    have := congrArg (fun z => (L.drExp a)⁻¹ *ᵥ z) this
    simpa [Matrix.mulVec_mulVec, Matrix.nonsing_inv_mul _ ha] using this
  obtain ⟨B0, hB0⟩ := (D : (Fin n → ℝ) →ₗ[ℝ] 𝔸).exists_leftInverse_of_injective (LinearMap.ker_eq_bot.2 hinj)
  let B : 𝔸 →L[ℝ] (Fin n → ℝ) := LinearMap.toContinuousLinearMap B0
  have hB : ∀ b, B (D b) = b := fun b => LinearMap.congr_fun hB0 b
  have hψ : HasStrictFDerivAt (fun b => B (φ b)) ((ContinuousLinearEquiv.refl ℝ (Fin n → ℝ)) : (Fin n → ℝ) →L[ℝ] (Fin n → ℝ)) a := by
    have := B.hasStrictFDerivAt.comp a hD
    have e : B.comp D = ((ContinuousLinearEquiv.refl ℝ (Fin n → ℝ)) : (Fin n → ℝ) →L[ℝ] (Fin n → ℝ)) := by
      ext1 b
      exact hB b
    rwa [e] at this
  refine ⟨fun z => hψ.localInverse (fun b => B (φ b)) (ContinuousLinearEquiv.refl ℝ (Fin n → ℝ)) a (B z), B, hψ.eventually_left_inverse, ?_, fun b => ?_⟩
  · have := hψ.to_localInverse.hasFDerivAt.comp (φ a) B.hasFDerivAt
    simpa using this
  · rw [← hDb, hB]

/-- **Regularity.** If `e` is continuous, stays where the exponential map is regular and `xl ⊕ e` is differentiable, then `e` is. -/
theorem IsLie.differentiable_of_rplus [CompleteSpace 𝔸] (h : IsLie L mat hat) {xl : ℝ → X} {dxl : Fin n → ℝ} {e : ℝ → Fin n → ℝ} {v : Fin n → ℝ}
    {S : Set ℝ} {t : ℝ} (hx : HasVel mat hat xl dxl S t) (hc : ContinuousWithinAt e S t) (ht : t ∈ S) (hreg : IsUnit (L.drExp (e t)).det)
    (hv : HasVel mat hat (fun s => L.rplus (xl s) (e s)) v S t) : DifferentiableWithinAt ℝ e S t := by
  obtain ⟨g, G, h1, h2, -⟩ := h.local_log (e t) hreg
  have key : (fun s => NormedSpace.exp (hat (e s))) = fun s => Ring.inverse (mat (xl s)) * mat (L.rplus (xl s) (e s)) := by
    funext s
    rw [h.rplus, ← mul_assoc, Ring.inverse_mul_cancel _ (h.unit _), one_mul]
  have d1 : DifferentiableWithinAt ℝ (fun s => NormedSpace.exp (hat (e s))) S t := by
    rw [key]
    obtain ⟨u, hu⟩ := h.unit (xl t)
    have di : DifferentiableWithinAt ℝ (fun s => Ring.inverse (mat (xl s))) S t := by
      have hi : DifferentiableAt ℝ (Ring.inverse : 𝔸 → 𝔸) (mat (xl t)) := by
        rw [← hu]
        exact (hasFDerivAt_ringInverse u).differentiableAt
      exact hi.comp_differentiableWithinAt t (HasDerivWithinAt.differentiableWithinAt hx)
    exact di.mul (HasDerivWithinAt.differentiableWithinAt hv)
  have d2 : DifferentiableWithinAt ℝ (fun s => g (NormedSpace.exp (hat (e s)))) S t := DifferentiableAt.comp_differentiableWithinAt t h2.differentiableAt d1
  refine d2.congr_of_eventuallyEq_of_mem ?_ ht
  filter_upwards [hc.eventually h1] with s hs
  exact hs.symm

theorem IsLie.drExp_zero [CompleteSpace 𝔸] (h : IsLie L mat hat) : L.drExp 0 = 1 := by
  obtain ⟨D, hD, hDb⟩ := h.drExp 0
  have h1 : HasFDerivAt (NormedSpace.exp : 𝔸 → 𝔸) (1 : 𝔸 →L[ℝ] 𝔸) (hat 0) := by
    rw [map_zero]
    exact hasFDerivAt_exp_zero
  have h2 := h1.comp (0 : Fin n → ℝ) (LinearMap.toContinuousLinearMap hat).hasFDerivAt
  have h3 : ∀ b, L.drExp 0 *ᵥ b = b := by
    intro b
    apply h.hat_inj
    have := hDb b
    rw [hD.unique h2] at this
    simpa using this.symm
  ext i j
  have := congrFun (h3 (Pi.single j 1)) i
  rw [Matrix.mulVec_single_one] at this
  rw [Matrix.col_apply] at this
  rw [this, Matrix.one_apply, Pi.single_apply]

/-- **Charts along a map.** A differentiable map into the group is, near each point, given by a differentiable map into the tangent space. -/
theorem IsLie.lift [CompleteSpace 𝔸] (h : IsLie L mat hat) {Z : Type*} [NormedAddCommGroup Z] [NormedSpace ℝ Z] {x : Z → X} {z0 : Z}
    {D : Z →L[ℝ] (Fin n → ℝ)} (hx : HasRd mat hat x D Set.univ z0) :
    ∃ a : Z → Fin n → ℝ, a z0 = 0 ∧ HasFDerivAt a D z0 ∧ ∀ᶠ z in 𝓝 z0, x z = L.rplus (x z0) (a z) := by
  obtain ⟨M, hM, hD⟩ := hx
  rw [hasFDerivWithinAt_univ] at hM
  obtain ⟨g, G, h1, h2, h3⟩ := h.local_log 0 (by rw [h.drExp_zero]; simp)
  rw [h.drExp_zero] at h3
  simp only [map_zero, NormedSpace.exp_zero, one_mul, Matrix.one_mulVec] at h1 h2 h3
  obtain ⟨y, hy, -⟩ := h.exists_inv (x z0)
  obtain ⟨ε, hε, hball⟩ := Metric.eventually_nhds_iff.1 h1
  obtain ⟨δ, hδ, hch⟩ := h.chart (x z0) ε hε
  refine ⟨fun z => g (y * mat (x z)), ?_, ?_, ?_⟩
  · change g (y * mat (x z0)) = 0
    rw [hy]
    have := hball (y := 0) (by simpa using hε)
    simpa using this
  · have e : HasFDerivAt (fun z => y * mat (x z)) (y • M) z0 := hM.const_mul y
    have h2' : HasFDerivAt g G (y * mat (x z0)) := by rw [hy]; exact h2
    have := h2'.comp z0 e
    have e2 : G.comp (y • M) = D := by
      ext1 w
      simp only [ContinuousLinearMap.comp_apply, ContinuousLinearMap.smul_apply, smul_eq_mul, hD]
      rw [← mul_assoc, hy, one_mul, h3]
    rwa [e2] at this
  · have hc := hM.continuousAt
    have : ∀ᶠ z in 𝓝 z0, ‖mat (x z) - mat (x z0)‖ < δ := by
      have := Metric.eventually_nhds_iff.1 (Metric.tendsto_nhds.1 hc δ hδ)
      filter_upwards [Metric.tendsto_nhds.1 hc δ hδ] with z hz
      rwa [dist_eq_norm] at hz
    filter_upwards [this] with z hz
    obtain ⟨a, ha, e⟩ := hch _ hz
    have : g (y * mat (x z)) = a := by
      rw [e, h.rplus, ← mul_assoc, hy, one_mul]
      exact hball (by simpa using ha)
    rw [this, ← e]

end Verif.Lie
