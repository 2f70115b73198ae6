import Verif.Proofs.FlattenTail
import Verif.Props.FlattenExact

/-! # What the end of the series does to the Hessian of the flattened dynamics (C78) -/

set_option linter.unusedSectionVars false

namespace Verif.Flatten

open Verif.Sparse Verif.Lie Verif.MeshFn Verif.NLP Verif.PowSeries

open scoped Matrix Topology

open Filter

variable {X U 𝔸 𝔹 E : Type*} {nx nu : ℕ} [NormedRing 𝔸] [NormedAlgebra ℝ 𝔸] [FiniteDimensional ℝ 𝔸] [CompleteSpace 𝔸]
  [NormedRing 𝔹] [NormedAlgebra ℝ 𝔹] [FiniteDimensional ℝ 𝔹] [CompleteSpace 𝔹] [NormedAddCommGroup E] [NormedSpace ℝ E] [FiniteDimensional ℝ E]
  {LX : LieOps X ℝ nx} {LU : LieOps U ℝ nu} {mat : X → 𝔸} {hat : (Fin nx → ℝ) →ₗ[ℝ] 𝔸} {matU : U → 𝔹} {hatU : (Fin nu → ℝ) →ₗ[ℝ] 𝔹}
  {f : GFn X U ℝ nx} {xl : Traj X ℝ nx} {ul : Traj U ℝ nu} {ddx : ℝ → Fin nx → ℝ} {ddu : ℝ → Fin nu → ℝ}

theorem flatDyn_val_eq (h : IsLie LX mat hat) (T : (Fin nx → ℝ) ≃ₗ[ℝ] E) {p : Arg nx nu → ℝ} (hp : ‖adLin LX T (eLin p)‖ < 2 * Real.pi) (j : Fin nx) :
    (flatDyn LX LU f xl ul).val p j = truncDyn LX LU f xl ul p j + T.symm (rem LX LU f xl ul T p) j := by
  have e := (drExpinv_tail h T hp).2 (wOf LX LU f xl ul p)
  unfold rem
  rw [← e, T.symm_apply_apply]
  change (LX.drExpinv (eOf p) *ᵥ wOf LX LU f xl ul p + LX.ad (eOf p) *ᵥ xl.d (p .t)) j = (truncInv LX (eOf p) *ᵥ wOf LX LU f xl ul p + LX.ad (eOf p) *ᵥ xl.d (p .t)) j +
    (LX.drExpinv (eOf p) *ᵥ wOf LX LU f xl ul p - truncInv LX (eOf p) *ᵥ wOf LX LU f xl ul p) j
  simp only [Pi.add_apply, Pi.sub_apply]
  ring

/-- **C78.** The Hessian of the flattened dynamics and their second derivatives by `e` and `v`: the error, from stopping the series after `B₂₂`, at all
points at which `ad(e)` is smaller than `2π` in some norm (given by coordinates `T`). Here `w` is the velocity relative to the reference, and `γ`
bounds the generators; for `ρ = r / 2π` the error is at most
`4 ρ²⁴ / (1 - ρ) |wₐᵦ| + O(ρ²³) (γₐ |wᵦ| + γᵦ |wₐ|) + O(ρ²²) γₐ γᵦ |w|`. -/
theorem flat_dyn_hessian_error (h : IsLie LX mat hat) (h' : IsLie LU matU hatU) (hf : IsDrG LX LU f) (hx : IsTraj2 mat hat xl ddx)
    (hu : IsTraj2 matU hatU ul ddu) (T : (Fin nx → ℝ) ≃ₗ[ℝ] E) {γ : Fin nx → ℝ} (hγ0 : ∀ c, 0 ≤ γ c) (hγ : ∀ c v, ‖T (LX.gen c *ᵥ v)‖ ≤ γ c * ‖T v‖)
    (p : Arg nx nu → ℝ) {r : ℝ} (hr0 : 0 ≤ r) (hr : ∀ v, ‖T (LX.ad (fun k => p (.x k)) *ᵥ v)‖ ≤ r * ‖T v‖) (hr2 : r < 2 * Real.pi)
    {a b : Arg nx nu} (ha : a ≠ .t) (hb : b ≠ .t) {ρ : ℝ} (hρ : ρ = r / (2 * Real.pi)) :
    (∀ᶠ p in 𝓝 p, ∀ j, DifferentiableAt ℝ (fun p => (flatDyn LX LU f xl ul).val p j) p) ∧
      (∀ j, DifferentiableAt ℝ (pd (fun p => (flatDyn LX LU f xl ul).val p j) a) p) ∧
      ‖T fun j => ((flatDyn LX LU f xl ul).hess p).val a.pos ((1 + nx + nu) * j + b.pos) - pd (pd (fun p => (flatDyn LX LU f xl ul).val p j) a) b p‖ ≤
        4 * ρ ^ 24 / (1 - ρ) * ‖T fun j => pd (pd (fun p => relVel LX LU f xl ul p j) a) b p‖ +
        4 / (2 * Real.pi) * (24 * ρ ^ 23 / (1 - ρ) + ρ ^ 24 / (1 - ρ) ^ 2) *
          (errPart γ a * ‖T fun j => pd (fun p => relVel LX LU f xl ul p j) b p‖ + errPart γ b * ‖T fun j => pd (fun p => relVel LX LU f xl ul p j) a p‖) +
        4 / (2 * Real.pi) ^ 2 * (552 * ρ ^ 22 / (1 - ρ) + 48 * ρ ^ 23 / (1 - ρ) ^ 2 + 2 * ρ ^ 24 / (1 - ρ) ^ 3) *
          (errPart γ a * errPart γ b) * ‖T (relVel LX LU f xl ul p)‖ := by
  haveI : CompleteSpace E := FiniteDimensional.complete ℝ E
  have hpi := Real.pi_pos
  have h1 : ‖(1 : E →L[ℝ] E)‖ ≤ 1 := ContinuousLinearMap.norm_id_le
  set q := (2 * Real.pi)⁻¹ with hqd
  have hq : 0 < q := by positivity
  have hρq : ρ = q * r := by rw [hρ, hqd, div_eq_inv_mul]
  have hρ1 : q * r < 1 := by rw [hqd, inv_mul_lt_iff₀ (by positivity), mul_one]; exact hr2
  have hA : ‖adLin LX T (eLin p)‖ ≤ r := by
    rw [adLin_eq h]
    exact norm_op T hr0 hr
  have hp : ‖adLin LX T (eLin p)‖ < 2 * Real.pi := hA.trans_lt hr2
  have hopen : ∀ᶠ p' in 𝓝 p, ‖adLin LX T (eLin p')‖ < 2 * Real.pi := by
    have hc : Continuous fun p' : Arg nx nu → ℝ => ‖adLin LX T (eLin p')‖ := ((adLin LX T).comp eLin).continuous.norm
    exact hc.continuousAt.eventually (gt_mem_nhds hp)
  let Ts : E →L[ℝ] (Fin nx → ℝ) := T.symm.toLinearMap.toContinuousLinearMap
  have coordD : ∀ (j : Fin nx) (g : (Arg nx nu → ℝ) → E) (D : (Arg nx nu → ℝ) →L[ℝ] E) (p' : Arg nx nu → ℝ), HasFDerivAt g D p' →
      HasPd (fun p => T.symm (g p) j) (fun a => T.symm (D (Pi.single a 1)) j) p' := by
    intro j g D p' hD
    exact ⟨_, ((ContinuousLinearMap.proj (R := ℝ) (φ := fun _ : Fin nx => ℝ) j).comp Ts).hasFDerivAt.comp p' hD, fun a => rfl⟩
  have hd1 : ∀ p' : Arg nx nu → ℝ, ‖adLin LX T (eLin p')‖ < 2 * Real.pi → ∀ j, ∃ S, HasPd (fun p => (flatDyn LX LU f xl ul).val p j) S p' ∧
      S a = pd (fun p => truncDyn LX LU f xl ul p j) a p' + T.symm (rem1 LX LU f xl ul T a p') j := by
    intro p' hp' j
    obtain ⟨D, hD, eD⟩ := rem_hasFDerivAt h h' hf hx hu T hp'
    have k1 := (flat_dyn_hessian h h' hf hx hu p' j ha hb).1 p'
    have k2 := (hasPd_of_differentiableAt k1).add (coordD j _ D p' hD)
    have hopen' : ∀ᶠ p'' in 𝓝 p', ‖adLin LX T (eLin p'')‖ < 2 * Real.pi := by
      have hc : Continuous fun p' : Arg nx nu → ℝ => ‖adLin LX T (eLin p')‖ := ((adLin LX T).comp eLin).continuous.norm
      exact hc.continuousAt.eventually (gt_mem_nhds hp')
    obtain ⟨D2, hD2, eD2⟩ := k2
    refine ⟨_, ⟨D2, hD2.congr_of_eventuallyEq ?_, eD2⟩, ?_⟩
    · filter_upwards [hopen'] with p'' hp''
      exact flatDyn_val_eq h T hp'' j
    · rw [← eD a ha]
  have hd2 : ∀ j, ∃ S, HasPd (pd (fun p => (flatDyn LX LU f xl ul).val p j) a) S p ∧
      S b = pd (pd (fun p => truncDyn LX LU f xl ul p j) a) b p + T.symm (rem2 LX LU f xl ul T a b p) j := by
    intro j
    obtain ⟨D, hD, eD⟩ := rem1_hasFDerivAt h h' hf hx hu T hp ha
    have k1 := (flat_dyn_hessian h h' hf hx hu p j ha hb).2.1
    obtain ⟨D2, hD2, eD2⟩ := (hasPd_of_differentiableAt k1).add (coordD j _ D p hD)
    refine ⟨_, ⟨D2, hD2.congr_of_eventuallyEq ?_, eD2⟩, ?_⟩
    · filter_upwards [hopen] with p' hp'
      obtain ⟨S, hS, eS⟩ := hd1 p' hp' j
      rw [hS.pd a, eS]
    · rw [← eD b hb]
  refine ⟨?_, fun j => (hd2 j).choose_spec.1.differentiableAt, ?_⟩
  · filter_upwards [hopen] with p' hp' j
    exact (hd1 p' hp' j).choose_spec.1.differentiableAt
  -- the error is the remainder
  have eerr : (fun j : Fin nx => ((flatDyn LX LU f xl ul).hess p).val a.pos ((1 + nx + nu) * j + b.pos) - pd (pd (fun p => (flatDyn LX LU f xl ul).val p j) a) b p) =
      -T.symm (rem2 LX LU f xl ul T a b p) := by
    funext j
    obtain ⟨S, hS, eS⟩ := hd2 j
    rw [hS.pd b, eS, (flat_dyn_hessian h h' hf hx hu p j ha hb).2.2, Pi.neg_apply]
    ring
  rw [eerr, map_neg, norm_neg, T.apply_symm_apply]
  have ew1 : ∀ a, a ≠ .t → (fun j => jOf LX LU f xl ul p j a) = fun j => pd (fun p => relVel LX LU f xl ul p j) a p := by
    intro a ha
    funext j
    have := (wOf_hasPd h h' hf hx hu p j).pd a
    rw [if_neg ha, sub_zero] at this
    exact this.symm
  have ew2 : (fun j => hOf LX LU f xl ul p j a b) = fun j => pd (pd (fun p => relVel LX LU f xl ul p j) a) b p := by
    funext j
    have e1 : pd (fun p => relVel LX LU f xl ul p j) a = fun p => jOf LX LU f xl ul p j a := by
      funext p'
      have := (wOf_hasPd h h' hf hx hu p' j).pd a
      rw [if_neg ha, sub_zero] at this
      exact this
    rw [e1]
    exact ((jOf_hasPd h h' hf hx hu p j a (Or.inl ha)).pd b).symm
  unfold rem2
  rw [ew1 a ha, ew1 b hb, ew2]
  have ew0 : wOf LX LU f xl ul p = relVel LX LU f xl ul p := rfl
  rw [ew0]
  have n0 := norm_tail h1 hq bc_bound hr0 hρ1 hA
  have n1 := norm_tail1 h1 hq bc_bound hr0 hρ1 hA
  have n2 := norm_tail2 h1 hq bc_bound hr0 hρ1 hA (dirOf LX T a)
  rw [← hρq] at n0 n1 n2 hρ1
  have hρ0 : 0 ≤ ρ := by rw [hρq]; positivity
  have h1ρ : 0 < 1 - ρ := by linarith
  have ga := norm_dirOf hγ0 hγ a
  have gb := norm_dirOf hγ0 hγ b
  have ga0 : 0 ≤ errPart γ a := (norm_nonneg _).trans ga
  have gb0 : 0 ≤ errPart γ b := (norm_nonneg _).trans gb
  set S1 := 24 * ρ ^ 23 / (1 - ρ) + ρ ^ 24 / (1 - ρ) ^ 2 with hS1
  set S2 := 552 * ρ ^ 22 / (1 - ρ) + 48 * ρ ^ 23 / (1 - ρ) ^ 2 + 2 * ρ ^ 24 / (1 - ρ) ^ 3 with hS2
  have hS10 : 0 ≤ S1 := by positivity
  have hS20 : 0 ≤ S2 := by positivity
  have t0 : ∀ v : E, ‖tail bc (adLin LX T (eLin p)) v‖ ≤ 4 * ρ ^ 24 / (1 - ρ) * ‖v‖ := fun v =>
    (ContinuousLinearMap.le_opNorm _ _).trans (mul_le_mul_of_nonneg_right n0 (norm_nonneg _))
  have t1 : ∀ (c : Arg nx nu) (v : E), c ≠ .t → ‖tail1 bc (adLin LX T (eLin p)) (dirOf LX T c) v‖ ≤ 4 / (2 * Real.pi) * S1 * (errPart γ c * ‖v‖) := by
    intro c v _
    have gc := norm_dirOf hγ0 hγ c
    refine (ContinuousLinearMap.le_opNorm _ _).trans ((mul_le_mul_of_nonneg_right ((ContinuousLinearMap.le_opNorm _ _).trans
      (mul_le_mul n1 gc (norm_nonneg _) (by positivity))) (norm_nonneg _)).trans (le_of_eq ?_))
    rw [div_eq_mul_inv 4 (2 * Real.pi), ← hqd]
    ring
  have t2 : ∀ v : E, ‖tail2 bc (adLin LX T (eLin p)) (dirOf LX T a) (dirOf LX T b) v‖ ≤ 4 / (2 * Real.pi) ^ 2 * S2 * (errPart γ a * errPart γ b) * ‖v‖ := by
    intro v
    refine (ContinuousLinearMap.le_opNorm _ _).trans (mul_le_mul_of_nonneg_right ((ContinuousLinearMap.le_opNorm _ _).trans ?_) (norm_nonneg _))
    refine (mul_le_mul (n2.trans (mul_le_mul_of_nonneg_right (mul_le_mul_of_nonneg_left ga (by positivity)) (by positivity))) gb (norm_nonneg _) (by positivity)).trans (le_of_eq ?_)
    rw [div_eq_mul_inv 4 ((2 * Real.pi) ^ 2), ← inv_pow, ← hqd]
    ring
  refine (norm_add_le _ _).trans ((add_le_add (norm_add_le _ _) (norm_add_le _ _)).trans ?_)
  refine (add_le_add (add_le_add (t0 _) (t1 b _ hb)) (add_le_add (t1 a _ ha) (t2 _))).trans (le_of_eq ?_)
  ring

/-- **C78.** The same for errors up to half a turn, with numbers. -/
theorem flat_dyn_hessian_half_turn (h : IsLie LX mat hat) (h' : IsLie LU matU hatU) (hf : IsDrG LX LU f) (hx : IsTraj2 mat hat xl ddx)
    (hu : IsTraj2 matU hatU ul ddu) (T : (Fin nx → ℝ) ≃ₗ[ℝ] E) (hγ : ∀ c v, ‖T (LX.gen c *ᵥ v)‖ ≤ ‖T v‖)
    (p : Arg nx nu → ℝ) (hr : ∀ v, ‖T (LX.ad (fun k => p (.x k)) *ᵥ v)‖ ≤ Real.pi * ‖T v‖) {a b : Arg nx nu} (ha : a ≠ .t) (hb : b ≠ .t) :
    ‖T fun j => ((flatDyn LX LU f xl ul).hess p).val a.pos ((1 + nx + nu) * j + b.pos) - pd (pd (fun p => (flatDyn LX LU f xl ul).val p j) a) b p‖ ≤
      5e-7 * ‖T fun j => pd (pd (fun p => relVel LX LU f xl ul p j) a) b p‖ +
      4e-6 * (‖T fun j => pd (fun p => relVel LX LU f xl ul p j) b p‖ + ‖T fun j => pd (fun p => relVel LX LU f xl ul p j) a p‖) +
      3.2e-5 * ‖T (relVel LX LU f xl ul p)‖ := by
  have hpi := Real.pi_pos
  have hpi3 := Real.pi_gt_three
  have key := (flat_dyn_hessian_error h h' hf hx hu T (γ := fun _ => 1) (fun _ => zero_le_one) (fun c v => by rw [one_mul]; exact hγ c v) p hpi.le hr (by linarith)
    ha hb (ρ := 1 / 2) (by field_simp)).2.2
  refine key.trans ?_
  have e1 : ∀ a : Arg nx nu, 0 ≤ errPart (fun _ : Fin nx => (1 : ℝ)) a ∧ errPart (fun _ : Fin nx => (1 : ℝ)) a ≤ 1 := by
    intro a
    cases a <;> simp [errPart]
  have hS1 : 4 / (2 * Real.pi) * (24 * (1 / 2 : ℝ) ^ 23 / (1 - 1 / 2) + (1 / 2) ^ 24 / (1 - 1 / 2) ^ 2) ≤ 4e-6 := by
    have : 4 / (2 * Real.pi) ≤ 4 / 6 := div_le_div_of_nonneg_left (by norm_num) (by norm_num) (by linarith)
    refine (mul_le_mul_of_nonneg_right this (by norm_num)).trans (by norm_num)
  have hS2 : 4 / (2 * Real.pi) ^ 2 * (552 * (1 / 2 : ℝ) ^ 22 / (1 - 1 / 2) + 48 * (1 / 2) ^ 23 / (1 - 1 / 2) ^ 2 + 2 * (1 / 2) ^ 24 / (1 - 1 / 2) ^ 3) ≤ 3.2e-5 := by
    have : 4 / (2 * Real.pi) ^ 2 ≤ 4 / 36 := div_le_div_of_nonneg_left (by norm_num) (by norm_num) (by nlinarith)
    refine (mul_le_mul_of_nonneg_right this (by norm_num)).trans (by norm_num)
  have hS0 : 4 * (1 / 2 : ℝ) ^ 24 / (1 - 1 / 2) ≤ 5e-7 := by norm_num
  refine add_le_add (add_le_add ?_ ?_) ?_
  · exact mul_le_mul_of_nonneg_right hS0 (norm_nonneg _)
  · refine mul_le_mul hS1 (add_le_add ?_ ?_) (add_nonneg (mul_nonneg (e1 a).1 (norm_nonneg _)) (mul_nonneg (e1 b).1 (norm_nonneg _))) (by norm_num)
    · exact mul_le_of_le_one_left (norm_nonneg _) (e1 a).2
    · exact mul_le_of_le_one_left (norm_nonneg _) (e1 b).2
  · refine mul_le_mul_of_nonneg_right ?_ (norm_nonneg _)
    refine (mul_le_mul hS2 (mul_le_one₀ (e1 a).2 (e1 b).1 (e1 b).2) (mul_nonneg (e1 a).1 (e1 b).1) (by norm_num)).trans (le_of_eq (mul_one _))

end Verif.Flatten
