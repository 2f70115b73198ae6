import Verif.Props.FlattenTail
import Verif.Props.LieClassical
import Verif.Props.FlattenExamples
import Mathlib.Analysis.InnerProductSpace.PiL2

/-! # The Hessian of dynamics on rotations (C36, C78) -/

namespace Verif.Flatten

open Verif.Sparse Verif.Lie Verif.MeshFn Verif.NLP

open scoped Matrix Topology Matrix.Norms.Operator

set_option linter.unusedSectionVars false

variable {X : Type*} {L : LieOps X ℝ 3} {mat : X → Matrix (Fin 3) (Fin 3) ℝ}

/-- Euclidean coordinates. -/
noncomputable def euc (n : ℕ) : (Fin n → ℝ) ≃ₗ[ℝ] EuclideanSpace ℝ (Fin n) := (WithLp.linearEquiv 2 ℝ (Fin n → ℝ)).symm

theorem euc_sq (n : ℕ) (v : Fin n → ℝ) : ‖euc n v‖ ^ 2 = ∑ i, v i ^ 2 := by
  rw [EuclideanSpace.real_norm_sq_eq]
  rfl

theorem so3_ad (h : IsLie L mat so3Hat) (a v : Fin 3 → ℝ) : L.ad a *ᵥ v = ![a 1 * v 2 - a 2 * v 1, a 2 * v 0 - a 0 * v 2, a 0 * v 1 - a 1 * v 0] := by
  refine h.hat_inj ?_
  rw [h.ad]
  ext i j
  fin_cases i <;> fin_cases j <;> simp [so3Hat, Matrix.mul_apply, Fin.sum_univ_three] <;> ring

theorem so3_ad_norm (h : IsLie L mat so3Hat) (a v : Fin 3 → ℝ) : ‖euc 3 (L.ad a *ᵥ v)‖ ≤ ‖euc 3 a‖ * ‖euc 3 v‖ := by
  refine le_of_sq_le_sq ?_ (by positivity)
  rw [mul_pow, euc_sq, euc_sq, euc_sq, so3_ad h]
  simp only [Fin.sum_univ_three, Matrix.cons_val]
  nlinarith [sq_nonneg (a 0 * v 0 + a 1 * v 1 + a 2 * v 2)]

theorem so3_gen_norm (h : IsLie L mat so3Hat) (c : Fin 3) (v : Fin 3 → ℝ) : ‖euc 3 (L.gen c *ᵥ v)‖ ≤ ‖euc 3 v‖ := by
  have e : L.gen c = L.ad (Pi.single c 1) := by
    rw [h.gen]
    simp [Pi.single_apply]
  have e1 : ‖euc 3 (Pi.single c 1)‖ = 1 := by
    have : ‖euc 3 (Pi.single c 1)‖ ^ 2 = 1 := by
      rw [euc_sq]
      simp [Pi.single_apply]
    exact (pow_eq_one_iff_of_nonneg (norm_nonneg _) (by norm_num)).1 this
  rw [e]
  have := so3_ad_norm h (Pi.single c 1) v
  rwa [e1, one_mul] at this

/-- **C36.** For rotations: `dr_expinv` is the sum of the series for all angles below `2π`. -/
theorem so3_dr_expinv_series (h : IsLie L mat so3Hat) (a : Fin 3 → ℝ) (ha : ‖euc 3 a‖ < 2 * Real.pi) :
    IsUnit (L.drExp a).det ∧
      (∀ b, HasSum (fun k => (((bernoulli k : ℚ) : ℝ) * (-1) ^ k / k.factorial) • (L.ad a ^ k *ᵥ b)) (L.drExpinv a *ᵥ b)) ∧
      ∀ b, ‖euc 3 (L.drExpinv a *ᵥ b - truncInv L a *ᵥ b)‖ ≤ 4 * (‖euc 3 a‖ / (2 * Real.pi)) ^ 24 / (1 - ‖euc 3 a‖ / (2 * Real.pi)) * ‖euc 3 b‖ :=
  dr_expinv_series h (euc 3) a (norm_nonneg _) (so3_ad_norm h a) ha

variable {U 𝔹 : Type*} {nu : ℕ} [NormedRing 𝔹] [NormedAlgebra ℝ 𝔹] [FiniteDimensional ℝ 𝔹] [CompleteSpace 𝔹]
  {LU : LieOps U ℝ nu} {matU : U → 𝔹} {hatU : (Fin nu → ℝ) →ₗ[ℝ] 𝔹}
  {f : GFn X U ℝ 3} {xl : Traj X ℝ 3} {ul : Traj U ℝ nu} {ddx : ℝ → Fin 3 → ℝ} {ddu : ℝ → Fin nu → ℝ}

/-- **C78.** Dynamics on rotations: the Hessian for all errors up to half a turn, in Euclidean norms. -/
theorem flat_dyn_hessian_so3 (h : IsLie L mat so3Hat) (h' : IsLie LU matU hatU) (hf : IsDrG L LU f) (hx : IsTraj2 mat so3Hat xl ddx)
    (hu : IsTraj2 matU hatU ul ddu) (p : Arg 3 nu → ℝ) (hp : ‖euc 3 fun k => p (.x k)‖ ≤ Real.pi) {a b : Arg 3 nu} (ha : a ≠ .t) (hb : b ≠ .t) :
    ‖euc 3 fun j => ((flatDyn L LU f xl ul).hess p).val a.pos ((1 + 3 + nu) * j + b.pos) - pd (pd (fun p => (flatDyn L LU f xl ul).val p j) a) b p‖ ≤
      5e-7 * ‖euc 3 fun j => pd (pd (fun p => relVel L LU f xl ul p j) a) b p‖ +
      4e-6 * (‖euc 3 fun j => pd (fun p => relVel L LU f xl ul p j) b p‖ + ‖euc 3 fun j => pd (fun p => relVel L LU f xl ul p j) a p‖) +
      3.2e-5 * ‖euc 3 (relVel L LU f xl ul p)‖ :=
  flat_dyn_hessian_half_turn h h' hf hx hu (euc 3) (so3_gen_norm h) p
    (fun v => (so3_ad_norm h _ v).trans (mul_le_mul_of_nonneg_right hp (norm_nonneg _))) ha hb

/-! ### A case: a body that turns with the velocity `(u₀ + t u₁², u₁, u₂)`, and a reference with a constant velocity -/

/-- `SO(3)`. -/
noncomputable abbrev so3 : LieOps (SO 3) ℝ 3 := lin (SO 3) so3Hat so3Hat_inj isLin_SO3

/-- The coordinates `(t, u)`. -/
def tuOf (t : ℝ) (_ : SO 3) (u : Fin 3 → ℝ) : Arg 3 3 → ℝ := pt t (fun _ : Fin 3 => (0 : ℝ)) u

/-- `(u₀ + t u₁², u₁, u₂)`. -/
def spinF (p : Arg 3 3 → ℝ) : Fin 3 → ℝ := ![p (.u 0) + p .t * p (.u 1) ^ 2, p (.u 1), p (.u 2)]

theorem spin_dr : IsDrG so3 (vec ℝ 3) (gOf tuOf spinF) := by
  refine gOf_isDrG (φ := spinF) (fun j => by unfold spinF; fin_cases j <;> simp <;> fun_prop) fun p δ => ?_
  refine ⟨fun a => match a with | .x c => -δ (.x c) | _ => 0, ?_, fun w => ?_⟩
  · funext a
    cases a <;> simp [tuOf, pt, move, vec]
  · funext j
    fin_cases j <;> simp [spinF]

/-- `exp(t ω)`. -/
noncomputable def spinXl (ω : Fin 3 → ℝ) : Traj (SO 3) ℝ 3 := ⟨fun t => so3.exp (t • ω), fun _ => ω⟩

def zeroUl : Traj (Fin 3 → ℝ) ℝ 3 := ⟨fun _ => 0, fun _ => 0⟩

theorem spinXl_traj (ω : Fin 3 → ℝ) : IsTraj2 (fun x : SO 3 => ((x : (Matrix (Fin 3) (Fin 3) ℝ)ˣ) : Matrix (Fin 3) (Fin 3) ℝ)) so3Hat (spinXl ω) fun _ => 0 where
  vel t := by
    have e : ∀ s : ℝ, (((spinXl ω).val s : (Matrix (Fin 3) (Fin 3) ℝ)ˣ) : Matrix (Fin 3) (Fin 3) ℝ) = NormedSpace.exp (s • so3Hat ω) := by
      intro s
      change _ = _
      rw [← map_smul]
      exact so3_isLie.exp (s • ω)
    unfold HasVel
    simp only [e]
    exact (hasDerivAt_exp_smul_const (𝕂 := ℝ) (so3Hat ω) t).hasDerivWithinAt
  acc t := hasDerivAt_const t _

theorem zeroUl_traj : IsTraj2 (vecMat 3) (vecHat 3) zeroUl fun _ => 0 where
  vel t := by
    have e2 : vecMat 3 (zeroUl.val t) * vecHat 3 (zeroUl.d t) = 0 := by simp [zeroUl]
    unfold HasVel
    rw [e2]
    exact hasDerivWithinAt_const (𝕜 := ℝ) (F := TrivSqZeroExt ℝ (Fin 3 → ℝ)) t Set.univ (vecMat 3 0)
  acc t := hasDerivAt_const t _

/-- `flat_dyn_hessian_so3` applies to all errors up to half a turn. Second derivatives by the error: the relative velocity does not depend on it, and
the bound is `3.2e-5 |f - ω|`. -/
example (ω : Fin 3 → ℝ) (p : Arg 3 3 → ℝ) (hp : ‖euc 3 fun k => p (.x k)‖ ≤ Real.pi) (c d : Fin 3) :
    ‖euc 3 fun j => ((flatDyn so3 (vec ℝ 3) (gOf tuOf spinF) (spinXl ω) zeroUl).hess p).val (1 + c) (7 * j + (1 + d)) -
      pd (pd (fun p => (flatDyn so3 (vec ℝ 3) (gOf tuOf spinF) (spinXl ω) zeroUl).val p j) (.x c)) (.x d) p‖ ≤
      3.2e-5 * ‖euc 3 (relVel so3 (vec ℝ 3) (gOf tuOf spinF) (spinXl ω) zeroUl p)‖ := by
  have h := flat_dyn_hessian_so3 so3_isLie (vec_isLie 3) spin_dr (spinXl_traj ω) zeroUl_traj p hp (a := .x c) (b := .x d) (by simp) (by simp)
  have e : ∀ j, (fun p => relVel so3 (vec ℝ 3) (gOf tuOf spinF) (spinXl ω) zeroUl p j) = fun p : Arg 3 3 → ℝ => spinF p j - ω j := by
    intro j
    funext p
    change spinF (tuOf (p .t) _ ((0 : Fin 3 → ℝ) + fun k => p (.u k))) j - ω j = _
    fin_cases j <;> simp [spinF, tuOf, pt]
  have hs : ∀ j c p, pd (fun p : Arg 3 3 → ℝ => spinF p j - ω j) (.x c) p = 0 := by
    intro j c p
    fin_cases j
    · have := (((hasPd_coord (.u 0) p).add ((hasPd_coord .t p).mul ((hasPd_coord (.u 1) p).mul (hasPd_coord (.u 1) p)))).sub (hasPd_const (ω 0) p)).pd (.x c)
      simpa [spinF, pow_two] using this
    · have := ((hasPd_coord (.u 1) p).sub (hasPd_const (ω 1) p)).pd (Arg.x c : Arg 3 3)
      simpa [spinF] using this
    · have := ((hasPd_coord (.u 2) p).sub (hasPd_const (ω 2) p)).pd (Arg.x c : Arg 3 3)
      simpa [spinF] using this
  have hs2 : ∀ j c, pd (fun p : Arg 3 3 → ℝ => spinF p j - ω j) (.x c) = fun _ => 0 := fun j c => funext (hs j c)
  simp only [e, hs2] at h
  have h0 : (fun _ : Fin 3 => (0 : ℝ)) = 0 := rfl
  simp only [(hasPd_const (0 : ℝ) p).pd, h0, map_zero, norm_zero, mul_zero, add_zero, zero_add] at h
  exact h

end Verif.Flatten
