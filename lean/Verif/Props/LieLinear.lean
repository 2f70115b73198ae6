import Verif.Props.LieExamples
import Mathlib.Analysis.Calculus.InverseFunctionTheorem.FDeriv
import Mathlib.Analysis.Normed.Module.FiniteDimension
import Mathlib.Analysis.Calculus.Deriv.Slope
import Mathlib.LinearAlgebra.Matrix.ToLin
import Mathlib.Topology.Algebra.Star
import Mathlib.Algebra.Star.Module

/-!
# Linear Lie groups satisfy the assumptions

A subgroup of the units of a finite-dimensional algebra whose elements close to 1 are the exponentials of the small elements of a subspace
(`IsLin`) satisfies `IsLie`, with the functions of the smooth library defined by what their names say. The groups of the library are of this
kind: orthogonal and unitary groups, semidirect products and products, see `Verif/Props/LieClassical.lean`.
-/

namespace Verif.Lie

open scoped Matrix Topology
open Filter

set_option linter.unusedSectionVars false

variable {𝔸 𝔹 : Type*} {n : ℕ} [NormedRing 𝔸] [NormedAlgebra ℝ 𝔸] [FiniteDimensional ℝ 𝔸] [CompleteSpace 𝔸]
  [NormedRing 𝔹] [NormedAlgebra ℝ 𝔹] [FiniteDimensional ℝ 𝔹] [CompleteSpace 𝔹]

/-- The group `G` has the tangent space `𝔤`. -/
structure IsLin (G : Subgroup 𝔸ˣ) (𝔤 : Submodule ℝ 𝔸) : Prop where
  exp_mem : ∀ A ∈ 𝔤, expUnit A ∈ G
  chart : ∀ ε > 0, ∃ δ > 0, ∀ g ∈ G, ‖(g : 𝔸) - 1‖ < δ → ∃ A ∈ 𝔤, ‖A‖ < ε ∧ (g : 𝔸) = NormedSpace.exp A

theorem exp_strict : HasStrictFDerivAt (NormedSpace.exp : 𝔸 → 𝔸) (ContinuousLinearEquiv.refl ℝ 𝔸 : 𝔸 →L[ℝ] 𝔸) 0 :=
  hasStrictFDerivAt_exp_zero (𝕂 := ℝ) (𝔸 := 𝔸)

/-- A logarithm near 1. -/
theorem exists_log (𝔸 : Type*) [NormedRing 𝔸] [NormedAlgebra ℝ 𝔸] [FiniteDimensional ℝ 𝔸] [CompleteSpace 𝔸] :
    ∃ (log : 𝔸 → 𝔸) (r : ℝ), 0 < r ∧ (∀ A, ‖A‖ < r → log (NormedSpace.exp A) = A) ∧ HasFDerivAt log (ContinuousLinearMap.id ℝ 𝔸) 1 := by
  have hs := exp_strict (𝔸 := 𝔸)
  obtain ⟨r, hr, hb⟩ := Metric.eventually_nhds_iff.1 hs.eventually_left_inverse
  refine ⟨hs.localInverse _ _ _, r, hr, fun A hA => hb (by rwa [dist_zero_right]), ?_⟩
  have := hs.to_localInverse.hasFDerivAt
  rw [NormedSpace.exp_zero] at this
  exact this

theorem exp_near (ε : ℝ) (hε : 0 < ε) : ∃ δ > 0, ∀ y : 𝔸, ‖y - 1‖ < δ → ∃ A, ‖A‖ < ε ∧ y = NormedSpace.exp A := by
  have hm := (exp_strict (𝔸 := 𝔸)).map_nhds_eq_of_equiv
  have h1 : (NormedSpace.exp : 𝔸 → 𝔸) '' Metric.ball 0 ε ∈ 𝓝 (1 : 𝔸) := by
    rw [← NormedSpace.exp_zero (𝔸 := 𝔸), ← hm]
    exact image_mem_map (Metric.ball_mem_nhds _ hε)
  obtain ⟨δ, hδ, hball⟩ := Metric.mem_nhds_iff.1 h1
  refine ⟨δ, hδ, fun y hy => ?_⟩
  obtain ⟨A, hA, e⟩ := hball (show y ∈ Metric.ball 1 δ by rwa [Metric.mem_ball, dist_eq_norm])
  exact ⟨A, by simpa using hA, e.symm⟩

/-! ### The tangent space is what the names say -/

theorem mem_of_slope {𝔤 : Submodule ℝ 𝔸} {c : ℝ → 𝔸} {C : 𝔸} (hd : HasDerivAt c C 0) (h : ∀ᶠ t in 𝓝 (0 : ℝ), c t - c 0 ∈ 𝔤) : C ∈ 𝔤 := by
  have hcl : IsClosed (𝔤 : Set 𝔸) := 𝔤.closed_of_finiteDimensional
  have ht := hasDerivAt_iff_tendsto_slope_zero.1 hd
  refine hcl.mem_of_tendsto ht ?_
  filter_upwards [nhdsWithin_le_nhds h] with t ht
  rw [zero_add]
  exact 𝔤.smul_mem _ ht

/-- Velocities of curves in the group lie in the tangent space. -/
theorem IsLin.tangent {G : Subgroup 𝔸ˣ} {𝔤 : Submodule ℝ 𝔸} (h : IsLin G 𝔤) {c : ℝ → 𝔸ˣ} (hc : ∀ t, c t ∈ G) (h0 : c 0 = 1) {C : 𝔸}
    (hd : HasDerivAt (fun t => (c t : 𝔸)) C 0) : C ∈ 𝔤 := by
  obtain ⟨log, r, hr, hl, hlog⟩ := exists_log 𝔸
  obtain ⟨δ, hδ, hch⟩ := h.chart r hr
  have hd' : HasDerivAt (fun t => log (c t : 𝔸)) C 0 := by
    have e : ((c 0 : 𝔸ˣ) : 𝔸) = 1 := by rw [h0, Units.val_one]
    have := (e ▸ hlog : HasFDerivAt log (ContinuousLinearMap.id ℝ 𝔸) ((c 0 : 𝔸ˣ) : 𝔸)).comp_hasDerivAt 0 hd
    exact this
  have hcont : Tendsto (fun t => (c t : 𝔸)) (𝓝 0) (𝓝 1) := by
    have := hd.continuousAt.tendsto
    rwa [h0, Units.val_one] at this
  refine mem_of_slope hd' ?_
  have hev : ∀ᶠ t in 𝓝 (0 : ℝ), ‖(c t : 𝔸) - 1‖ < δ := by
    have := hcont.eventually (Metric.ball_mem_nhds 1 hδ)
    filter_upwards [this] with t ht
    rwa [← dist_eq_norm]
  have hin : ∀ t, ‖(c t : 𝔸) - 1‖ < δ → log (c t : 𝔸) ∈ 𝔤 := by
    intro t ht
    obtain ⟨A, hA, hn, e⟩ := hch (c t) (hc t) ht
    rw [e, hl A hn]
    exact hA
  filter_upwards [hev] with t ht
  refine 𝔤.sub_mem (hin t ht) (hin 0 ?_)
  rw [h0, Units.val_one, sub_self, norm_zero]
  exact hδ

theorem exp_line (A : 𝔸) : HasDerivAt (fun t : ℝ => NormedSpace.exp (t • A)) A 0 := by
  have := hasDerivAt_exp_smul_const (𝕂 := ℝ) A (0 : ℝ)
  simpa using this

theorem IsLin.conj_mem {G : Subgroup 𝔸ˣ} {𝔤 : Submodule ℝ 𝔸} (h : IsLin G 𝔤) {x : 𝔸ˣ} (hx : x ∈ G) {A : 𝔸} (hA : A ∈ 𝔤) :
    (x : 𝔸) * A * ((x⁻¹ : 𝔸ˣ) : 𝔸) ∈ 𝔤 := by
  refine h.tangent (c := fun t => x * expUnit (t • A) * x⁻¹) (fun t => G.mul_mem (G.mul_mem hx (h.exp_mem _ (𝔤.smul_mem _ hA))) (G.inv_mem hx)) ?_ ?_
  · have : expUnit ((0 : ℝ) • A) = 1 := by
      apply Units.ext
      change NormedSpace.exp ((0 : ℝ) • A) = 1
      rw [zero_smul, NormedSpace.exp_zero]
    rw [this, mul_one, mul_inv_cancel]
  · exact ((exp_line A).const_mul (x : 𝔸)).mul_const _

theorem IsLin.comm_mem {G : Subgroup 𝔸ˣ} {𝔤 : Submodule ℝ 𝔸} (h : IsLin G 𝔤) {A B : 𝔸} (hA : A ∈ 𝔤) (hB : B ∈ 𝔤) : A * B - B * A ∈ 𝔤 := by
  have hd : HasDerivAt (fun t : ℝ => NormedSpace.exp (t • A) * B * NormedSpace.exp (t • (-A))) (A * B - B * A) 0 := by
    have := ((exp_line A).mul_const B).mul (exp_line (-A))
    simp only [zero_smul, NormedSpace.exp_zero, mul_one, one_mul, mul_neg, ← sub_eq_add_neg] at this
    exact this
  refine mem_of_slope hd (Eventually.of_forall fun t => 𝔤.sub_mem ?_ ?_)
  · have := h.conj_mem (h.exp_mem _ (𝔤.smul_mem t hA)) hB
    rw [smul_neg]
    exact this
  · simpa using hB

theorem IsLin.drx_mem {G : Subgroup 𝔸ˣ} {𝔤 : Submodule ℝ 𝔸} (h : IsLin G 𝔤) {A B : 𝔸} (hA : A ∈ 𝔤) (hB : B ∈ 𝔤) : drx A B ∈ 𝔤 := by
  refine h.tangent (c := fun t => expUnit (-A) * expUnit (A + t • B))
    (fun t => G.mul_mem (h.exp_mem _ (𝔤.neg_mem hA)) (h.exp_mem _ (𝔤.add_mem hA (𝔤.smul_mem _ hB)))) ?_ ?_
  · apply Units.ext
    change NormedSpace.exp (-A) * NormedSpace.exp (A + (0 : ℝ) • B) = 1
    rw [zero_smul, add_zero, exp_neg_mul]
  · have h1 : HasFDerivAt (NormedSpace.exp : 𝔸 → 𝔸) (fderiv ℝ NormedSpace.exp (A + (0 : ℝ) • B)) (A + (0 : ℝ) • B) :=
      (exp_contDiff.differentiable (by simp) _).hasFDerivAt
    have h2 : HasDerivAt (fun t : ℝ => A + t • B) B 0 := by
      have := ((hasDerivAt_id (0 : ℝ)).smul_const B).const_add A
      rw [one_smul] at this
      exact this
    have h3 := (h1.comp_hasDerivAt 0 h2).const_mul (NormedSpace.exp (-A))
    rw [zero_smul, add_zero] at h3
    exact h3

/-! ### The functions of the library -/

theorem map_sum_smul_aux (hat : (Fin n → ℝ) →ₗ[ℝ] 𝔸) (V : 𝔸 →ₗ[ℝ] (Fin n → ℝ)) (s : Finset (Fin n)) (a : Fin n → ℝ) (f : Fin n → 𝔸 →ₗ[ℝ] 𝔸) :
    ∑ i ∈ s, a i • (V ∘ₗ f i ∘ₗ hat) = V ∘ₗ (∑ i ∈ s, a i • f i) ∘ₗ hat := by
  ext v
  simp [LinearMap.sum_apply, Finset.sum_apply]

theorem eq_of_mul_right_aux {x : 𝔸} {g : 𝔸ˣ} (h : x * g = 1) : x = ((g⁻¹ : 𝔸ˣ) : 𝔸) := by
  have := congrArg (· * ((g⁻¹ : 𝔸ˣ) : 𝔸)) h
  simpa [mul_assoc] using this

/-- A left inverse of `hat`. -/
noncomputable def vee (hat : (Fin n → ℝ) →ₗ[ℝ] 𝔸) (hi : Function.Injective hat) : 𝔸 →ₗ[ℝ] (Fin n → ℝ) :=
  (LinearMap.exists_leftInverse_of_injective hat (LinearMap.ker_eq_bot.2 hi)).choose

theorem vee_hat {hat : (Fin n → ℝ) →ₗ[ℝ] 𝔸} (hi : Function.Injective hat) (a : Fin n → ℝ) : vee hat hi (hat a) = a :=
  LinearMap.congr_fun (LinearMap.exists_leftInverse_of_injective hat (LinearMap.ker_eq_bot.2 hi)).choose_spec a

/-- The matrix of a map that keeps the tangent space. -/
noncomputable def mx (hat : (Fin n → ℝ) →ₗ[ℝ] 𝔸) (hi : Function.Injective hat) (T : 𝔸 →ₗ[ℝ] 𝔸) : Matrix (Fin n) (Fin n) ℝ :=
  LinearMap.toMatrix' (vee hat hi ∘ₗ T ∘ₗ hat)

theorem hat_mx {hat : (Fin n → ℝ) →ₗ[ℝ] 𝔸} (hi : Function.Injective hat) {T : 𝔸 →ₗ[ℝ] 𝔸} {v : Fin n → ℝ} (h : T (hat v) ∈ LinearMap.range hat) :
    hat (mx hat hi T *ᵥ v) = T (hat v) := by
  obtain ⟨w, hw⟩ := h
  have : mx hat hi T *ᵥ v = vee hat hi (T (hat v)) := LinearMap.toMatrix'_mulVec _ _
  rw [this, ← hw, vee_hat]

/-- The functions of the smooth library on a linear group. -/
noncomputable def lin (G : Subgroup 𝔸ˣ) (hat : (Fin n → ℝ) →ₗ[ℝ] 𝔸) (hi : Function.Injective hat) (h : IsLin G (LinearMap.range hat)) : LieOps G ℝ n where
  rplus x a := x * ⟨expUnit (hat a), h.exp_mem _ ⟨a, rfl⟩⟩
  exp a := ⟨expUnit (hat a), h.exp_mem _ ⟨a, rfl⟩⟩
  Ad x := mx hat hi (conj (x : 𝔸ˣ))
  ad a := mx hat hi (comm (hat a))
  drExp a := mx hat hi (drx (hat a))
  drExpinv a := (mx hat hi (drx (hat a)))⁻¹
  d2rExp a := fun k r c => fderiv ℝ (fun a => mx hat hi (drx (hat a)) k r) a (Pi.single c 1)
  d2rExpinv a := fun k r c => fderiv ℝ (fun a => (mx hat hi (drx (hat a)))⁻¹ k r) a (Pi.single c 1)
  gen i := mx hat hi (comm (hat (Pi.single i 1)))

theorem mx_differentiable (hat : (Fin n → ℝ) →ₗ[ℝ] 𝔸) (hi : Function.Injective hat) (k r : Fin n) : Differentiable ℝ fun a => mx hat hi (drx (hat a)) k r := by
  have e : (fun a => mx hat hi (drx (hat a)) k r) = fun a => vee hat hi (NormedSpace.exp (-hat a) * fderiv ℝ (NormedSpace.exp : 𝔸 → 𝔸) (hat a) (hat (Pi.single r 1))) k := by
    funext a
    unfold mx
    rw [LinearMap.toMatrix'_apply]
    have : (fun j' => if j' = r then (1 : ℝ) else 0) = Pi.single r 1 := by
      funext j
      simp [Pi.single_apply]
    first
      | rfl
      | (rw [this]; rfl)
  rw [e]
  have hh : Differentiable ℝ hat := (LinearMap.toContinuousLinearMap hat).differentiable
  have h1 : Differentiable ℝ fun a => NormedSpace.exp (-hat a) := (exp_contDiff.differentiable (by simp)).comp hh.neg
  have h2 : Differentiable ℝ fun a => fderiv ℝ (NormedSpace.exp : 𝔸 → 𝔸) (hat a) (hat (Pi.single r 1)) := by
    have : Differentiable ℝ (fderiv ℝ (NormedSpace.exp : 𝔸 → 𝔸)) := by
      have := (exp_contDiff (𝔸 := 𝔸)).fderiv_right (m := 1) (by simp)
      exact this.differentiable (by simp)
    exact (this.comp hh).clm_apply (differentiable_const _)
  have h3 := (LinearMap.toContinuousLinearMap (vee hat hi)).differentiable.comp (h1.mul h2)
  exact differentiable_pi.1 h3 k

/-- **Linear groups satisfy the assumptions on the smooth library.** -/
theorem lin_isLie (G : Subgroup 𝔸ˣ) (hat : (Fin n → ℝ) →ₗ[ℝ] 𝔸) (hi : Function.Injective hat) (h : IsLin G (LinearMap.range hat)) :
    IsLie (lin G hat hi h) (fun x : G => ((x : 𝔸ˣ) : 𝔸)) hat where
  hat_inj := hi
  unit x := (x : 𝔸ˣ).isUnit
  rplus x a := rfl
  exp a := rfl
  chart := by
    intro x ε hε
    have hv : Continuous (vee hat hi) := (LinearMap.toContinuousLinearMap (vee hat hi)).continuous
    obtain ⟨ρ, hρ, hb⟩ := Metric.continuous_iff.1 hv 0 ε hε
    obtain ⟨δ, hδ, hch⟩ := h.chart ρ hρ
    have hc : Tendsto (fun y : 𝔸 => (((x : 𝔸ˣ)⁻¹ : 𝔸ˣ) : 𝔸) * y) (𝓝 ((x : 𝔸ˣ) : 𝔸)) (𝓝 1) := by
      have : ContinuousAt (fun y : 𝔸 => (((x : 𝔸ˣ)⁻¹ : 𝔸ˣ) : 𝔸) * y) ((x : 𝔸ˣ) : 𝔸) := by fun_prop
      have h := this.tendsto
      simpa using h
    obtain ⟨δ', hδ', hball⟩ := Metric.mem_nhds_iff.1 (hc (Metric.ball_mem_nhds 1 hδ))
    refine ⟨δ', hδ', fun y hy => ?_⟩
    have hmem := hball (show ((y : 𝔸ˣ) : 𝔸) ∈ Metric.ball ((x : 𝔸ˣ) : 𝔸) δ' by rwa [Metric.mem_ball, dist_eq_norm])
    obtain ⟨A, ⟨a, rfl⟩, hn, e⟩ := hch ((x : 𝔸ˣ)⁻¹ * (y : 𝔸ˣ)) (G.mul_mem (G.inv_mem x.2) y.2) (by
      have := hmem
      rw [Set.mem_preimage, Metric.mem_ball, dist_eq_norm] at this
      exact this)
    refine ⟨a, ?_, ?_⟩
    · have := hb (hat a) (by rwa [dist_zero_right])
      rwa [vee_hat, map_zero, dist_zero_right] at this
    · apply Subtype.ext
      apply Units.ext
      change ((y : 𝔸ˣ) : 𝔸) = ((x : 𝔸ˣ) : 𝔸) * NormedSpace.exp (hat a)
      rw [← e, Units.val_mul, Units.mul_inv_cancel_left]
  Ad x v := by
    change hat (mx hat hi (conj (x : 𝔸ˣ)) *ᵥ v) * ((x : 𝔸ˣ) : 𝔸) = ((x : 𝔸ˣ) : 𝔸) * hat v
    have hm : conj (x : 𝔸ˣ) (hat v) ∈ LinearMap.range hat := by
      have := h.conj_mem x.2 (⟨v, rfl⟩ : hat v ∈ LinearMap.range hat)
      rw [mul_assoc] at this
      exact this
    rw [hat_mx hi hm]
    change ((x : 𝔸ˣ) : 𝔸) * (hat v * (((x : 𝔸ˣ)⁻¹ : 𝔸ˣ) : 𝔸)) * ((x : 𝔸ˣ) : 𝔸) = _
    rw [mul_assoc, mul_assoc, Units.inv_mul, mul_one]
  ad a c := hat_mx hi (T := comm (hat a)) (h.comm_mem ⟨a, rfl⟩ ⟨c, rfl⟩)
  gen a := by
    change mx hat hi (comm (hat a)) = ∑ i, a i • mx hat hi (comm (hat (Pi.single i 1)))
    have e : comm (hat a) = ∑ i, a i • comm (hat (Pi.single i 1)) := by
      have ea : a = ∑ i, a i • (Pi.single i 1 : Fin n → ℝ) := by
        funext j
        simp [Finset.sum_apply, Pi.single_apply]
      ext c
      conv_lhs => rw [ea]
      simp only [comm, map_sum, map_smul, LinearMap.sub_apply, LinearMap.mulLeft_apply, LinearMap.mulRight_apply, LinearMap.sum_apply,
        LinearMap.smul_apply, Finset.sum_mul, Finset.mul_sum, smul_sub, Finset.sum_sub_distrib, smul_mul_assoc, mul_smul_comm]
    have hsum : ∀ (s : Finset (Fin n)) (f : Fin n → 𝔸 →ₗ[ℝ] 𝔸), mx hat hi (∑ i ∈ s, a i • f i) = ∑ i ∈ s, a i • mx hat hi (f i) := by
      intro s f
      unfold mx
      rw [← map_sum_smul_aux hat (vee hat hi) s a f, map_sum]
      simp only [map_smul]
    rw [e, hsum]
  drExp a := by
    have h1 : HasFDerivAt (NormedSpace.exp : 𝔸 → 𝔸) (fderiv ℝ NormedSpace.exp (hat a)) (hat a) :=
      (exp_contDiff.differentiable (by simp) _).hasFDerivAt
    refine ⟨_, h1.comp a (LinearMap.toContinuousLinearMap hat).hasFDerivAt, fun c => ?_⟩
    change _ = NormedSpace.exp (hat a) * hat (mx hat hi (drx (hat a)) *ᵥ c)
    rw [hat_mx hi (h.drx_mem ⟨a, rfl⟩ ⟨c, rfl⟩)]
    change _ = NormedSpace.exp (hat a) * (NormedSpace.exp (-hat a) * fderiv ℝ NormedSpace.exp (hat a) (hat c))
    rw [← mul_assoc, exp_mul_neg, one_mul]
    rfl
  drExpinv a _ := rfl
  d2rExp a k r := ⟨_, (mx_differentiable hat hi k r a).hasFDerivAt, fun c => rfl⟩
  d2rExpinv a hu k r := ⟨_, (inv_differentiable (A := fun a => mx hat hi (drx (hat a))) (fun k r => mx_differentiable hat hi k r a) hu k r).hasFDerivAt, fun c => rfl⟩

/-! ### Building groups -/

theorem isLin_top : IsLin (⊤ : Subgroup 𝔸ˣ) ⊤ :=
  ⟨fun _ _ => trivial, fun ε hε => by
    obtain ⟨δ, hδ, h⟩ := exp_near (𝔸 := 𝔸) ε hε
    exact ⟨δ, hδ, fun g _ hg => by
      obtain ⟨A, hA, e⟩ := h _ hg
      exact ⟨A, trivial, hA, e⟩⟩⟩

theorem isLin_bot : IsLin (⊥ : Subgroup 𝔸ˣ) ⊥ := by
  refine ⟨fun A hA => ?_, fun ε hε => ⟨1, one_pos, fun g hg _ => ⟨0, Submodule.zero_mem _, by simpa using hε, ?_⟩⟩⟩
  · obtain rfl := (Submodule.mem_bot ℝ).1 hA
    rw [Subgroup.mem_bot]
    apply Units.ext
    exact NormedSpace.exp_zero
  · obtain rfl := Subgroup.mem_bot.1 hg
    rw [NormedSpace.exp_zero, Units.val_one]

/-- A smaller group with the same tangent space. -/
theorem IsLin.mono {G H : Subgroup 𝔸ˣ} {𝔤 : Submodule ℝ 𝔸} (h : IsLin G 𝔤) (hH : H ≤ G) (he : ∀ A ∈ 𝔤, expUnit A ∈ H) : IsLin H 𝔤 :=
  ⟨he, fun ε hε => by
    obtain ⟨δ, hδ, hc⟩ := h.chart ε hε
    exact ⟨δ, hδ, fun g hg hn => hc g (hH hg) hn⟩⟩

/-- The group of the elements whose image under an algebra map lies in a group. -/
theorem IsLin.comap {G : Subgroup 𝔹ˣ} {𝔤 : Submodule ℝ 𝔹} (h : IsLin G 𝔤) (π : 𝔸 →ₐ[ℝ] 𝔹) :
    IsLin (G.comap (Units.map (π : 𝔸 →* 𝔹))) (𝔤.comap (π : 𝔸 →ₗ[ℝ] 𝔹)) := by
  have hπ : Continuous π := (LinearMap.toContinuousLinearMap (π : 𝔸 →ₗ[ℝ] 𝔹)).continuous
  have hexp : ∀ A, π (NormedSpace.exp A) = NormedSpace.exp (π A) := fun A => by
    letI : NormedAlgebra ℚ 𝔸 := NormedAlgebra.restrictScalars ℚ ℝ 𝔸
    letI : NormedAlgebra ℚ 𝔹 := NormedAlgebra.restrictScalars ℚ ℝ 𝔹
    exact NormedSpace.map_exp π hπ A
  refine ⟨fun A hA => ?_, fun ε hε => ?_⟩
  · have : Units.map (π : 𝔸 →* 𝔹) (expUnit A) = expUnit (π A) := Units.ext (hexp A)
    rw [Subgroup.mem_comap, this]
    exact h.exp_mem _ hA
  · obtain ⟨log, r, hr, hl, -⟩ := exists_log 𝔹
    obtain ⟨δ', hδ', hc⟩ := h.chart r hr
    obtain ⟨ρ, hρ, hπ0⟩ := Metric.continuous_iff.1 hπ 0 r hr
    obtain ⟨ρ', hρ', hπ1⟩ := Metric.continuous_iff.1 hπ 1 δ' hδ'
    obtain ⟨δ, hδ, he⟩ := exp_near (𝔸 := 𝔸) (min ε ρ) (lt_min hε hρ)
    refine ⟨min δ ρ', lt_min hδ hρ', fun g hg hn => ?_⟩
    obtain ⟨A, hA, e⟩ := he g (hn.trans_le (min_le_left _ _))
    have h1 := hπ1 (g : 𝔸) (by rw [dist_eq_norm]; exact hn.trans_le (min_le_right _ _))
    rw [map_one, dist_eq_norm] at h1
    obtain ⟨B, hB, hBn, eB⟩ := hc _ hg h1
    have h0 := hπ0 A (by rw [dist_zero_right]; exact hA.trans_le (min_le_right _ _))
    rw [map_zero, dist_zero_right] at h0
    have hAB : π A = B := by
      rw [← hl _ h0, ← hl _ hBn, ← hexp, ← e, ← eB]
      rfl
    refine ⟨A, ?_, hA.trans_le (min_le_left _ _), e⟩
    rw [Submodule.mem_comap]
    change π A ∈ 𝔤
    rw [hAB]
    exact hB

theorem IsLin.inf {G H : Subgroup 𝔸ˣ} {𝔤 𝔥 : Submodule ℝ 𝔸} (h : IsLin G 𝔤) (h' : IsLin H 𝔥) : IsLin (G ⊓ H) (𝔤 ⊓ 𝔥) := by
  refine ⟨fun A hA => ⟨h.exp_mem A hA.1, h'.exp_mem A hA.2⟩, fun ε hε => ?_⟩
  obtain ⟨log, r, hr, hl, -⟩ := exists_log 𝔸
  obtain ⟨δ, hδ, hc⟩ := h.chart (min ε r) (lt_min hε hr)
  obtain ⟨δ', hδ', hc'⟩ := h'.chart (min ε r) (lt_min hε hr)
  refine ⟨min δ δ', lt_min hδ hδ', fun g hg hn => ?_⟩
  obtain ⟨A, hA, hAn, e⟩ := hc g hg.1 (hn.trans_le (min_le_left _ _))
  obtain ⟨B, hB, hBn, e'⟩ := hc' g hg.2 (hn.trans_le (min_le_right _ _))
  have : A = B := by
    rw [← hl A (hAn.trans_le (min_le_right _ _)), ← hl B (hBn.trans_le (min_le_right _ _)), ← e, ← e']
  exact ⟨A, ⟨hA, this ▸ hB⟩, hAn.trans_le (min_le_left _ _), e⟩

/-- The unitary elements. -/
def unitaryUnits (𝔸 : Type*) [NormedRing 𝔸] [StarRing 𝔸] : Subgroup 𝔸ˣ where
  carrier := {u | star (u : 𝔸) * u = 1}
  mul_mem' {a b} ha hb := by
    change star ((a * b : 𝔸ˣ) : 𝔸) * ((a * b : 𝔸ˣ) : 𝔸) = 1
    rw [Units.val_mul, star_mul, mul_assoc, ← mul_assoc (star (a : 𝔸)), ha, one_mul, hb]
  one_mem' := by simp
  inv_mem' {a} ha := by
    have ha' : star (a : 𝔸) * a = 1 := ha
    have e : star (a : 𝔸) = ((a⁻¹ : 𝔸ˣ) : 𝔸) := by
      have := congrArg (· * ((a⁻¹ : 𝔸ˣ) : 𝔸)) ha'
      simpa [mul_assoc] using this
    change star ((a⁻¹ : 𝔸ˣ) : 𝔸) * ((a⁻¹ : 𝔸ˣ) : 𝔸) = 1
    rw [← e, star_star, e, Units.mul_inv]

/-- The skew elements. -/
def skew (𝔸 : Type*) [NormedRing 𝔸] [NormedAlgebra ℝ 𝔸] [StarRing 𝔸] [StarModule ℝ 𝔸] : Submodule ℝ 𝔸 where
  carrier := {A | star A = -A}
  add_mem' {a b} ha hb := by
    change star (a + b) = -(a + b)
    rw [star_add, ha, hb]
    abel
  zero_mem' := by simp
  smul_mem' c a ha := by
    change star (c • a) = -(c • a)
    rw [star_smul, ha, star_trivial, smul_neg]

theorem isLin_unitary [StarRing 𝔸] [StarModule ℝ 𝔸] : IsLin (unitaryUnits 𝔸) (skew 𝔸) := by
  haveI : ContinuousStar 𝔸 := by
    let T : 𝔸 →ₗ[ℝ] 𝔸 :=
      { toFun := star
        map_add' := star_add
        map_smul' := fun c a => by rw [star_smul, star_trivial, RingHom.id_apply] }
    exact ⟨(LinearMap.toContinuousLinearMap T).continuous⟩
  have hst : ∀ A : 𝔸, star (NormedSpace.exp A) = NormedSpace.exp (star A) := fun A => NormedSpace.star_exp A
  refine ⟨fun A hA => ?_, fun ε hε => ?_⟩
  · change star (NormedSpace.exp A) * NormedSpace.exp A = 1
    rw [hst, (hA : star A = -A), exp_neg_mul]
  · obtain ⟨log, r, hr, hl, -⟩ := exists_log 𝔸
    obtain ⟨ρ, hρ, hs0⟩ := Metric.continuous_iff.1 (continuous_star (R := 𝔸)) 0 r hr
    obtain ⟨δ, hδ, he⟩ := exp_near (𝔸 := 𝔸) (min ε (min r ρ)) (lt_min hε (lt_min hr hρ))
    refine ⟨δ, hδ, fun g hg hn => ?_⟩
    obtain ⟨A, hA, e⟩ := he g hn
    refine ⟨A, ?_, hA.trans_le (min_le_left _ _), e⟩
    have h1 : ‖star A‖ < r := by
      have := hs0 A (by rw [dist_zero_right]; exact hA.trans_le ((min_le_right _ _).trans (min_le_right _ _)))
      rwa [star_zero, dist_zero_right] at this
    have h2 : ‖-A‖ < r := by
      rw [norm_neg]
      exact hA.trans_le ((min_le_right _ _).trans (min_le_left _ _))
    change star A = -A
    rw [← hl _ h1, ← hl _ h2, ← hst, ← e]
    have hg' : star (g : 𝔸) * g = 1 := hg
    have : NormedSpace.exp (-A) = ((g⁻¹ : 𝔸ˣ) : 𝔸) := by
      have := exp_neg_mul A
      rw [← e] at this
      exact eq_of_mul_right_aux this
    rw [this]
    congr 1
    exact eq_of_mul_right_aux hg'

end Verif.Lie
