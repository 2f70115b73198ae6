import Verif.Proofs.LieSeries
import Verif.Props.FlattenDeriv
import Verif.Props.FlattenDyn

/-! # The series in the Hessian of the dynamics, and problems whose derivatives are all right (C36, C77, C78) -/

set_option linter.unusedSectionVars false

namespace Verif.Flatten

open Verif.Sparse Verif.Lie Verif.MeshFn Verif.NLP

open scoped Matrix

section

variable {X 𝔸 E : Type*} {n : ℕ} [NormedRing 𝔸] [NormedAlgebra ℝ 𝔸] [FiniteDimensional ℝ 𝔸] [CompleteSpace 𝔸]
  {L : LieOps X ℝ n} {mat : X → 𝔸} {hat : (Fin n → ℝ) →ₗ[ℝ] 𝔸} [NormedAddCommGroup E] [NormedSpace ℝ E] [FiniteDimensional ℝ E]

/-- **C36.** While `ad(a)` is smaller than `2π` in some norm (given by coordinates `T`), `dr_expinv(a)` is the sum of the series with the Bernoulli
numbers, and this is the error of stopping after the last number of the table. For rotations in the Euclidean norm: angles below `2π`. -/
theorem dr_expinv_series (h : IsLie L mat hat) (T : (Fin n → ℝ) ≃ₗ[ℝ] E) (a : Fin n → ℝ) {r : ℝ} (hr0 : 0 ≤ r)
    (hr : ∀ v, ‖T (L.ad a *ᵥ v)‖ ≤ r * ‖T v‖) (hr2 : r < 2 * Real.pi) :
    IsUnit (L.drExp a).det ∧
      (∀ b, HasSum (fun k => (((bernoulli k : ℚ) : ℝ) * (-1) ^ k / k.factorial) • (L.ad a ^ k *ᵥ b)) (L.drExpinv a *ᵥ b)) ∧
      ∀ b, ‖T (L.drExpinv a *ᵥ b - truncInv L a *ᵥ b)‖ ≤ 4 * (r / (2 * Real.pi)) ^ 24 / (1 - r / (2 * Real.pi)) * ‖T b‖ :=
  drExpinv_small h T a hr0 hr hr2

/-- **C36.** If `ad(a)` is nilpotent then the series of the code is `dr_expinv(a)`. -/
theorem dr_expinv_nilpotent (h : IsLie L mat hat) (a : Fin n → ℝ) (h0 : L.ad a ^ 24 = 0) :
    IsUnit (L.drExp a).det ∧ L.drExpinv a = truncInv L a := drExpinv_nilpotent h a h0

end

variable {X U 𝔸 𝔹 : Type*} {nx nu nq ncr nce : ℕ} [NormedRing 𝔸] [NormedAlgebra ℝ 𝔸] [FiniteDimensional ℝ 𝔸] [CompleteSpace 𝔸]
  [NormedRing 𝔹] [NormedAlgebra ℝ 𝔹] [FiniteDimensional ℝ 𝔹] [CompleteSpace 𝔹]
  {LX : LieOps X ℝ nx} {LU : LieOps U ℝ nu} {mat : X → 𝔸} {hat : (Fin nx → ℝ) →ₗ[ℝ] 𝔸} {matU : U → 𝔹} {hatU : (Fin nu → ℝ) →ₗ[ℝ] 𝔹}
  {f : GFn X U ℝ nx} {xl : Traj X ℝ nx} {ul : Traj U ℝ nu} {ddx : ℝ → Fin nx → ℝ} {ddu : ℝ → Fin nu → ℝ}

/-- **C78.** On a group whose `ad` is nilpotent (vectors, for instance) the Hessian of the flattened dynamics holds their second derivatives by `e`
and `v`. -/
theorem flat_dyn_hessian_nilpotent_partial (h : IsLie LX mat hat) (h' : IsLie LU matU hatU) (hf : IsDrG LX LU f) (hx : IsTraj2 mat hat xl ddx)
    (hu : IsTraj2 matU hatU ul ddu) (h0 : ∀ e, LX.ad e ^ 24 = 0) (p : Arg nx nu → ℝ) (j : Fin nx) {a b : Arg nx nu} (ha : a ≠ .t) (hb : b ≠ .t) :
    (∀ p, DifferentiableAt ℝ (fun p => (flatDyn LX LU f xl ul).val p j) p) ∧
      DifferentiableAt ℝ (pd (fun p => (flatDyn LX LU f xl ul).val p j) a) p ∧
      ((flatDyn LX LU f xl ul).hess p).val a.pos ((1 + nx + nu) * j + b.pos) = pd (pd (fun p => (flatDyn LX LU f xl ul).val p j) a) b p := by
  have e : (fun p => (flatDyn LX LU f xl ul).val p j) = fun p => truncDyn LX LU f xl ul p j := by
    funext p
    rw [truncDyn, ← (drExpinv_nilpotent h _ (h0 _)).2]
    rfl
  rw [e]
  exact flat_dyn_hessian h h' hf hx hu p j ha hb

theorem ad_pow_contDiff (h : IsLie LX mat hat) (k : ℕ) (i j : Fin nx) : ContDiff ℝ 2 fun e : Fin nx → ℝ => (LX.ad e ^ k) i j := by
  have h1 : ∀ i j, ContDiff ℝ 2 fun e : Fin nx → ℝ => LX.ad e i j := by
    intro i j
    have e1 : (fun e : Fin nx → ℝ => LX.ad e i j) = fun e => ∑ c, e c * LX.gen c i j := by
      funext e
      rw [h.gen, Matrix.sum_apply]
      rfl
    rw [e1]
    fun_prop
  induction k generalizing i j with
  | zero => simpa using contDiff_const
  | succ k ih =>
    have e1 : (fun e : Fin nx → ℝ => (LX.ad e ^ (k + 1)) i j) = fun e => ∑ c, (LX.ad e ^ k) i c * LX.ad e c j := by
      funext e
      rw [pow_succ, Matrix.mul_apply]
    rw [e1]
    exact ContDiff.sum fun c _ => (ih i c).mul (h1 c j)

theorem truncInv_contDiff (h : IsLie LX mat hat) (i j : Fin nx) : ContDiff ℝ 2 fun e : Fin nx → ℝ => truncInv LX e i j := by
  have e1 : (fun e : Fin nx → ℝ => truncInv LX e i j) = fun e => ∑ k ∈ Finset.range 23, (((bernoulli k : ℚ) : ℝ) * (-1) ^ k / k.factorial) * (LX.ad e ^ k) i j := by
    funext e
    rw [truncInv, Matrix.sum_apply]
    rfl
  rw [e1]
  exact ContDiff.sum fun k _ => contDiff_const.mul (ad_pow_contDiff h k i j)

/-- **C77, C78.** If moreover the references have constant velocities then all derivatives of the flattened dynamics are right. -/
theorem flat_dyn_exact_partial (h : IsLie LX mat hat) (h' : IsLie LU matU hatU) (hf : IsDrG LX LU f) (hx : IsTraj2 mat hat xl fun _ => 0)
    (hu : IsTraj2 matU hatU ul fun _ => 0) (h0 : ∀ e, LX.ad e ^ 24 = 0) : IsDr (flatDyn LX LU f xl ul) := by
  have e0 : ∀ j, (fun p => (flatDyn LX LU f xl ul).val p j) = fun p => truncDyn LX LU f xl ul p j := by
    intro j
    funext p
    rw [truncDyn, ← (drExpinv_nilpotent h _ (h0 _)).2]
    rfl
  have sh := fun p => (flatDyn_spec LX LU hf.shape xl ul p).1
  have hd : ∀ t, xl.d t = xl.d 0 := fun t => is_const_of_deriv_eq_zero (fun t => (hx.acc t).differentiableAt) (fun t => (hx.acc t).deriv) t 0
  refine ⟨fun j => ?_, fun p => (sh p).1, fun p => (sh p).2.1, fun p => (sh p).2.2.1, fun p => (sh p).2.2.2, fun p j a => ?_, fun p j a b => ?_⟩
  · rw [e0]
    have hin := (flat_inner_exact_partial h h' hf hx hu).smooth
    have e1 : (fun p => truncDyn LX LU f xl ul p j) = fun p : Arg nx nu → ℝ =>
        (∑ i, truncInv LX (fun k => p (.x k)) j i * ((flatInner LX LU f xl ul).val p i - xl.d 0 i)) + ∑ r, (LX.ad (fun k => p (.x k)) ^ 1) j r * xl.d 0 r := by
      funext p
      rw [pow_one, ← hd (p .t)]
      rfl
    have hproj : ContDiff ℝ 2 fun p : Arg nx nu → ℝ => fun k : Fin nx => p (.x k) := by fun_prop
    rw [e1]
    exact (ContDiff.sum fun i _ => ((truncInv_contDiff h j i).comp hproj).mul ((hin i).sub contDiff_const)).add
      (ContDiff.sum fun r _ => ((ad_pow_contDiff h 1 j r).comp hproj).mul contDiff_const)
  · exact ((flat_dyn_jacobian_exact_partial h h' hf hx hu p (drExpinv_nilpotent h _ (h0 _)).1 j).pd a).symm
  · rw [e0]
    exact (flat_dyn_hessian_const_partial h h' hf hx hu p j a b).2.2

/-- **C75, C77, C78.** All derivatives of the flattened problem are right, for a nilpotent `ad` and references with constant velocities: what is proved
of the transcription to a nonlinear program, and of the calls to its solver, then holds of the flattened problem. -/
theorem flatten_exact_partial {ocp : GOCP X U ℝ nx nq ncr nce} (h : IsLie LX mat hat) (h' : IsLie LU matU hatU) (ho : IsDrGOCP LX LU ocp)
    (hx : IsTraj2 mat hat xl fun _ => 0) (hu : IsTraj2 matU hatU ul fun _ => 0) (h0 : ∀ e, LX.ad e ^ 24 = 0) : IsDrOCP (flattenOCP LX LU ocp xl ul) where
  theta := flat_endpt_exact_partial h ho.theta hx
  f := flat_dyn_exact_partial h h' ho.f hx hu h0
  g := flat_inner_exact_partial h h' ho.g hx hu
  cr := flat_inner_exact_partial h h' ho.cr hx hu
  ce := flat_endpt_exact_partial h ho.ce hx

end Verif.Flatten
