import Verif.Proofs.PowSeries
import Verif.Proofs.LieSeries
import Verif.Proofs.FlattenDynD

/-! # The remainder of the series in the flattened dynamics -/

set_option linter.unusedSectionVars false

namespace Verif.Flatten

open Verif.Sparse Verif.Lie Verif.MeshFn Verif.NLP Verif.PowSeries

open scoped Matrix Topology

open Filter

section

variable {X 𝔸 E : Type*} {n : ℕ} [NormedRing 𝔸] [NormedAlgebra ℝ 𝔸] [FiniteDimensional ℝ 𝔸] [CompleteSpace 𝔸]
  {L : LieOps X ℝ n} {mat : X → 𝔸} {hat : (Fin n → ℝ) →ₗ[ℝ] 𝔸} [NormedAddCommGroup E] [NormedSpace ℝ E] [FiniteDimensional ℝ E]

/-- `-gen c` in other coordinates. -/
noncomputable def genOp (L : LieOps X ℝ n) (T : (Fin n → ℝ) ≃ₗ[ℝ] E) (c : Fin n) : E →L[ℝ] E :=
  (T.toLinearMap ∘ₗ Matrix.mulVecLin (-L.gen c) ∘ₗ T.symm.toLinearMap).toContinuousLinearMap

/-- `-ad` in other coordinates, as a linear map. -/
noncomputable def adLin (L : LieOps X ℝ n) (T : (Fin n → ℝ) ≃ₗ[ℝ] E) : (Fin n → ℝ) →L[ℝ] E →L[ℝ] E :=
  ∑ c, (ContinuousLinearMap.proj (R := ℝ) (φ := fun _ : Fin n => ℝ) c).smulRight (genOp L T c)

theorem adLin_eq (h : IsLie L mat hat) (T : (Fin n → ℝ) ≃ₗ[ℝ] E) (a : Fin n → ℝ) : adLin L T a = adOp L T a := by
  ext1 v
  have e1 : adLin L T a v = ∑ c, a c • T ((-L.gen c) *ᵥ T.symm v) := by
    unfold adLin
    rw [ContinuousLinearMap.sum_apply, ContinuousLinearMap.sum_apply]
    rfl
  have e2 : adOp L T a v = T ((-L.ad a) *ᵥ T.symm v) := rfl
  rw [e1, e2, h.gen, Matrix.neg_mulVec, Matrix.sum_mulVec, map_neg, map_sum, ← Finset.sum_neg_distrib]
  refine Finset.sum_congr rfl fun c _ => ?_
  rw [Matrix.neg_mulVec, Matrix.smul_mulVec, map_neg, map_smul, smul_neg]

theorem adLin_single (T : (Fin n → ℝ) ≃ₗ[ℝ] E) (c : Fin n) : adLin L T (Pi.single c 1) = genOp L T c := by
  unfold adLin
  rw [ContinuousLinearMap.sum_apply, Finset.sum_eq_single c]
  · rw [ContinuousLinearMap.smulRight_apply, ContinuousLinearMap.proj_apply, Pi.single_eq_same, one_smul]
  · intro b _ hb
    rw [ContinuousLinearMap.smulRight_apply, ContinuousLinearMap.proj_apply, Pi.single_eq_of_ne hb, zero_smul]
  · exact fun hc => absurd (Finset.mem_univ c) hc

theorem norm_op {M : Matrix (Fin n) (Fin n) ℝ} (T : (Fin n → ℝ) ≃ₗ[ℝ] E) {r : ℝ} (hr0 : 0 ≤ r) (hr : ∀ v, ‖T (M *ᵥ v)‖ ≤ r * ‖T v‖) :
    ‖(T.toLinearMap ∘ₗ Matrix.mulVecLin (-M) ∘ₗ T.symm.toLinearMap).toContinuousLinearMap‖ ≤ r := by
  refine ContinuousLinearMap.opNorm_le_bound _ hr0 fun v => ?_
  have := hr (T.symm v)
  rw [T.apply_symm_apply] at this
  refine le_trans (le_of_eq ?_) this
  change ‖T ((-M) *ᵥ T.symm v)‖ = _
  rw [Matrix.neg_mulVec, map_neg, norm_neg]

theorem bc_bound (k : ℕ) : |bc (k + 24)| ≤ 4 * (2 * Real.pi)⁻¹ ^ (k + 24) := by
  have := abs_bc_le (n := k + 24) (by omega)
  rwa [div_eq_mul_inv, ← inv_pow] at this

/-- The remainder where the series converges. -/
theorem drExpinv_tail (h : IsLie L mat hat) (T : (Fin n → ℝ) ≃ₗ[ℝ] E) {a : Fin n → ℝ} (ha : ‖adLin L T a‖ < 2 * Real.pi) :
    IsUnit (L.drExp a).det ∧ ∀ b, T (L.drExpinv a *ᵥ b - truncInv L a *ᵥ b) = tail bc (adLin L T a) (T b) := by
  haveI : CompleteSpace E := FiniteDimensional.complete ℝ E
  have hpi := Real.pi_pos
  have h1 : ‖(1 : E →L[ℝ] E)‖ ≤ 1 := ContinuousLinearMap.norm_id_le
  have hq : (0 : ℝ) < (2 * Real.pi)⁻¹ := by positivity
  have hq1 : (2 * Real.pi)⁻¹ * ‖adLin L T a‖ < 1 := by
    rw [inv_mul_lt_iff₀ (by positivity), mul_one]; exact ha
  have hs24 : Summable fun k : ℕ => ‖bc (k + 24) • adLin L T a ^ (k + 24)‖ :=
    Summable.of_nonneg_of_le (fun _ => norm_nonneg _) (term0 h1 hq bc_bound (norm_nonneg _) le_rfl) (geo0 (by positivity) hq1).summable
  have hs : Summable fun k => ‖bc k • adOp L T a ^ k‖ := by
    rw [← adLin_eq h]
    exact (summable_nat_add_iff 24).1 hs24
  obtain ⟨k1, k2⟩ := drExpinv_series h T a hs
  refine ⟨k1, fun b => ?_⟩
  have e := (hasSum_nat_add_iff' 24).2 (k2 b)
  have e2 : T (L.drExpinv a *ᵥ b) - ∑ i ∈ Finset.range 24, bc i • T ((-L.ad a) ^ i *ᵥ b) = T (L.drExpinv a *ᵥ b - truncInv L a *ᵥ b) := by
    rw [truncInv_eq, map_sub, map_sum]
    simp only [map_smul]
  rw [e2] at e
  have e3 := (hs24.of_norm.hasSum).mapL (ContinuousLinearMap.apply ℝ E (T b))
  refine e.unique (e3.congr_fun fun k => ?_)
  change _ = (bc (k + 24) • adLin L T a ^ (k + 24)) (T b)
  rw [ContinuousLinearMap.smul_apply, adLin_eq h, adOp_pow]

end

theorem hasPd_pi {ι κ : Type*} [Fintype ι] [DecidableEq ι] [Fintype κ] {g : (ι → ℝ) → κ → ℝ} {S : κ → ι → ℝ} {z : ι → ℝ} (hg : ∀ k, HasPd (fun z => g z k) (S k) z) :
    ∃ D : (ι → ℝ) →L[ℝ] κ → ℝ, HasFDerivAt g D z ∧ ∀ a, D (Pi.single a 1) = fun k => S k a := by
  choose G hG eG using hg
  exact ⟨_, hasFDerivAt_pi.2 hG, fun a => funext fun k => eG k a⟩

variable {X U 𝔸 𝔹 E : Type*} {nx nu : ℕ} [NormedRing 𝔸] [NormedAlgebra ℝ 𝔸] [FiniteDimensional ℝ 𝔸] [CompleteSpace 𝔸]
  [NormedRing 𝔹] [NormedAlgebra ℝ 𝔹] [FiniteDimensional ℝ 𝔹] [CompleteSpace 𝔹] [NormedAddCommGroup E] [NormedSpace ℝ E] [FiniteDimensional ℝ E]
  {LX : LieOps X ℝ nx} {LU : LieOps U ℝ nu} {mat : X → 𝔸} {hat : (Fin nx → ℝ) →ₗ[ℝ] 𝔸} {matU : U → 𝔹} {hatU : (Fin nu → ℝ) →ₗ[ℝ] 𝔹}
  {f : GFn X U ℝ nx} {xl : Traj X ℝ nx} {ul : Traj U ℝ nu} {ddx : ℝ → Fin nx → ℝ} {ddu : ℝ → Fin nu → ℝ}

/-- The map from the point of a call to the error. -/
noncomputable def eLin : (Arg nx nu → ℝ) →L[ℝ] Fin nx → ℝ := ContinuousLinearMap.pi fun k => ContinuousLinearMap.proj (Arg.x k)

theorem eLin_apply (p : Arg nx nu → ℝ) : eLin p = eOf p := rfl

/-- The direction of an argument. -/
noncomputable def dirOf (LX : LieOps X ℝ nx) (T : (Fin nx → ℝ) ≃ₗ[ℝ] E) (a : Arg nx nu) : E →L[ℝ] E := adLin LX T (eLin (Pi.single a 1))

theorem dirOf_x (T : (Fin nx → ℝ) ≃ₗ[ℝ] E) (c : Fin nx) : dirOf LX T (.x c : Arg nx nu) = genOp LX T c := by
  rw [dirOf, ← adLin_single]
  congr 1
  funext k
  change (Pi.single (Arg.x c) (1 : ℝ) : Arg nx nu → ℝ) (.x k) = _
  simp [Pi.single_apply]

theorem dirOf_of {T : (Fin nx → ℝ) ≃ₗ[ℝ] E} {a : Arg nx nu} (ha : ∀ c, a ≠ .x c) : dirOf LX T a = 0 := by
  rw [dirOf]
  have : eLin (Pi.single a (1 : ℝ) : Arg nx nu → ℝ) = 0 := by
    funext k
    change (Pi.single a (1 : ℝ) : Arg nx nu → ℝ) (.x k) = 0
    rw [Pi.single_eq_of_ne (ha k).symm]
  rw [this, map_zero]

theorem norm_dirOf {T : (Fin nx → ℝ) ≃ₗ[ℝ] E} {γ : Fin nx → ℝ} (hγ0 : ∀ c, 0 ≤ γ c) (hγ : ∀ c v, ‖T (LX.gen c *ᵥ v)‖ ≤ γ c * ‖T v‖) (a : Arg nx nu) :
    ‖dirOf LX T a‖ ≤ errPart γ a := by
  cases a with
  | t => rw [dirOf_of fun c => by simp, norm_zero]; exact le_rfl
  | u k => rw [dirOf_of fun c => by simp, norm_zero]; exact le_rfl
  | x c => rw [dirOf_x]; exact norm_op T (hγ0 c) (hγ c)

/-- The remainder of the dynamics. -/
noncomputable def rem (LX : LieOps X ℝ nx) (LU : LieOps U ℝ nu) (f : GFn X U ℝ nx) (xl : Traj X ℝ nx) (ul : Traj U ℝ nu) (T : (Fin nx → ℝ) ≃ₗ[ℝ] E)
    (p : Arg nx nu → ℝ) : E := tail bc (adLin LX T (eLin p)) (T (wOf LX LU f xl ul p))

noncomputable def rem1 (LX : LieOps X ℝ nx) (LU : LieOps U ℝ nu) (f : GFn X U ℝ nx) (xl : Traj X ℝ nx) (ul : Traj U ℝ nu) (T : (Fin nx → ℝ) ≃ₗ[ℝ] E)
    (a : Arg nx nu) (p : Arg nx nu → ℝ) : E :=
  tail bc (adLin LX T (eLin p)) (T fun j => jOf LX LU f xl ul p j a) + tail1 bc (adLin LX T (eLin p)) (dirOf LX T a) (T (wOf LX LU f xl ul p))

noncomputable def rem2 (LX : LieOps X ℝ nx) (LU : LieOps U ℝ nu) (f : GFn X U ℝ nx) (xl : Traj X ℝ nx) (ul : Traj U ℝ nu) (T : (Fin nx → ℝ) ≃ₗ[ℝ] E)
    (a b : Arg nx nu) (p : Arg nx nu → ℝ) : E :=
  tail bc (adLin LX T (eLin p)) (T fun j => hOf LX LU f xl ul p j a b) + tail1 bc (adLin LX T (eLin p)) (dirOf LX T b) (T fun j => jOf LX LU f xl ul p j a) +
    (tail1 bc (adLin LX T (eLin p)) (dirOf LX T a) (T fun j => jOf LX LU f xl ul p j b) +
      tail2 bc (adLin LX T (eLin p)) (dirOf LX T a) (dirOf LX T b) (T (wOf LX LU f xl ul p)))

section

variable (h : IsLie LX mat hat) (h' : IsLie LU matU hatU) (hf : IsDrG LX LU f) (hx : IsTraj2 mat hat xl ddx) (hu : IsTraj2 matU hatU ul ddu)
  (T : (Fin nx → ℝ) ≃ₗ[ℝ] E) {p : Arg nx nu → ℝ} (hp : ‖adLin LX T (eLin p)‖ < 2 * Real.pi)

include h h' hf hx hu hp

theorem rem_hasFDerivAt : ∃ D : (Arg nx nu → ℝ) →L[ℝ] E, HasFDerivAt (rem LX LU f xl ul T) D p ∧ ∀ a, a ≠ .t → D (Pi.single a 1) = rem1 LX LU f xl ul T a p := by
  haveI : CompleteSpace E := FiniteDimensional.complete ℝ E
  have hpi := Real.pi_pos
  have h1 : ‖(1 : E →L[ℝ] E)‖ ≤ 1 := ContinuousLinearMap.norm_id_le
  have hq : (0 : ℝ) < (2 * Real.pi)⁻¹ := by positivity
  obtain ⟨s, hs, hs'⟩ := exists_between hp
  have hs1 : (2 * Real.pi)⁻¹ * s < 1 := by rw [inv_mul_lt_iff₀ (by positivity), mul_one]; exact hs'
  have hs0 : 0 ≤ s := (norm_nonneg _).trans hs.le
  have k1 := (tail_hasFDerivAt h1 hq bc_bound hs0 hs1 hs).comp p ((adLin LX T).comp eLin).hasFDerivAt
  obtain ⟨D, hD, eD⟩ := hasPd_pi fun j => wOf_hasPd h h' hf hx hu p j
  have k2 := T.toLinearMap.toContinuousLinearMap.hasFDerivAt.comp p hD
  refine ⟨_, k1.clm_apply k2, fun a ha => ?_⟩
  change tail bc (adLin LX T (eLin p)) (T (D (Pi.single a 1))) + tail1 bc (adLin LX T (eLin p)) (dirOf LX T a) (T (wOf LX LU f xl ul p)) = _
  rw [eD]
  simp only [if_neg ha, sub_zero]
  rfl

theorem rem1_hasFDerivAt {a : Arg nx nu} (ha : a ≠ .t) :
    ∃ D : (Arg nx nu → ℝ) →L[ℝ] E, HasFDerivAt (rem1 LX LU f xl ul T a) D p ∧ ∀ b, b ≠ .t → D (Pi.single b 1) = rem2 LX LU f xl ul T a b p := by
  haveI : CompleteSpace E := FiniteDimensional.complete ℝ E
  have hpi := Real.pi_pos
  have h1 : ‖(1 : E →L[ℝ] E)‖ ≤ 1 := ContinuousLinearMap.norm_id_le
  have hq : (0 : ℝ) < (2 * Real.pi)⁻¹ := by positivity
  obtain ⟨s, hs, hs'⟩ := exists_between hp
  have hs1 : (2 * Real.pi)⁻¹ * s < 1 := by rw [inv_mul_lt_iff₀ (by positivity), mul_one]; exact hs'
  have hs0 : 0 ≤ s := (norm_nonneg _).trans hs.le
  have kA := ((adLin LX T).comp (eLin (nu := nu))).hasFDerivAt (x := p)
  have k1 := (tail_hasFDerivAt h1 hq bc_bound hs0 hs1 hs).comp p kA
  have k1' := (tail1_hasFDerivAt h1 hq bc_bound hs0 hs1 hs (dirOf LX T a)).comp p kA
  obtain ⟨D, hD, eD⟩ := hasPd_pi fun j => wOf_hasPd h h' hf hx hu p j
  obtain ⟨D', hD', eD'⟩ := hasPd_pi fun j => jOf_hasPd h h' hf hx hu p j a (Or.inl ha)
  have k2 := T.toLinearMap.toContinuousLinearMap.hasFDerivAt.comp p hD
  have k2' := T.toLinearMap.toContinuousLinearMap.hasFDerivAt.comp p hD'
  refine ⟨_, (k1.clm_apply k2').add (k1'.clm_apply k2), fun b hb => ?_⟩
  change tail bc (adLin LX T (eLin p)) (T (D' (Pi.single b 1))) + tail1 bc (adLin LX T (eLin p)) (dirOf LX T b) (T fun j => jOf LX LU f xl ul p j a) +
    (tail1 bc (adLin LX T (eLin p)) (dirOf LX T a) (T (D (Pi.single b 1))) +
      tail2 bc (adLin LX T (eLin p)) (dirOf LX T a) (dirOf LX T b) (T (wOf LX LU f xl ul p))) = _
  rw [eD, eD']
  simp only [if_neg hb, sub_zero]
  rfl

end

end Verif.Flatten
