import Verif.Spec.Flatten
import Verif.Proofs.Lie

/-!
# Flattened problems are equivalent (C35)
-/

namespace Verif.Flatten

open Verif.Sparse Verif.Lie Verif.MeshFn Verif.NLP Verif.QP Verif.QPSpec

open scoped Matrix

variable {X U 𝔸 : Type*} {nx nu nq ncr nce : ℕ} [NormedRing 𝔸] [NormedAlgebra ℝ 𝔸] [FiniteDimensional ℝ 𝔸] [CompleteSpace 𝔸]
  {LX : LieOps X ℝ nx} {LU : LieOps U ℝ nu} {mat : X → 𝔸} {hat : (Fin nx → ℝ) →ₗ[ℝ] 𝔸}

/-- **C35.** What the flattened dynamics measure: let `x = xl ⊕ e` with velocity `w`. Then the defect `f - w` of the original dynamics, multiplied
with `dr_expinv(e)`, is the defect of the flattened dynamics. -/
theorem flat_defect (h : IsLie LX mat hat) (f : GFn X U ℝ nx) (xl : Traj X ℝ nx) (ul : Traj U ℝ nu) (e : ℝ → Fin nx → ℝ) (v : Fin nu → ℝ)
    (de : Fin nx → ℝ) (S : Set ℝ) (t : ℝ) (hreg : IsUnit (LX.drExp (e t)).det) (hxl : HasVel mat hat xl.val (xl.d t) S t)
    (he : HasDerivWithinAt e de S t) :
    ∃ w, HasVel mat hat (fun s => LX.rplus (xl.val s) (e s)) w S t ∧
      LX.drExpinv (e t) *ᵥ (f.val t (LX.rplus (xl.val t) (e t)) (LU.rplus (ul.val t) v) - w) = dynVal LX LU f xl ul t (e t) v - de := by
  refine ⟨_, h.vel_rplus hxl he, ?_⟩
  have h1 : ∀ b, LX.drExpinv (e t) *ᵥ (LX.drExp (e t) *ᵥ b) = b := by
    intro b
    rw [h.drExpinv _ hreg, Matrix.mulVec_mulVec, Matrix.nonsing_inv_mul _ hreg, Matrix.one_mulVec]
  have h2 := h1 (LX.ad (e t) *ᵥ xl.d t)
  rw [h.drExp_ad, Matrix.mulVec_sub] at h2
  unfold dynVal
  rw [Matrix.mulVec_sub, Matrix.mulVec_add, h1, Matrix.mulVec_sub, ← h2]
  abel

/-- **C35.** The flattened dynamics hold for `e` exactly when the original dynamics hold for `x = xl ⊕ e`. -/
theorem flat_dynamics (h : IsLie LX mat hat) (f : GFn X U ℝ nx) (xl : Traj X ℝ nx) (ul : Traj U ℝ nu) (tf : ℝ) (e : ℝ → Fin nx → ℝ)
    (v : ℝ → Fin nu → ℝ) (hxl : IsTraj mat hat xl (Set.Icc 0 tf)) (hreg : Regular LX e (Set.Icc 0 tf)) (hc : ContinuousOn e (Set.Icc 0 tf))
    (t : ℝ) (ht : t ∈ Set.Icc 0 tf) :
    HasVel mat hat (fun s => LX.rplus (xl.val s) (e s)) (f.val t (LX.rplus (xl.val t) (e t)) (LU.rplus (ul.val t) (v t))) (Set.Icc 0 tf) t ↔
      HasDerivWithinAt e (dynVal LX LU f xl ul t (e t) (v t)) (Set.Icc 0 tf) t := by
  constructor
  · intro hx
    have hd := (h.differentiable_of_rplus (hxl t ht) (hc t ht) ht (hreg t ht) hx).hasDerivWithinAt
    obtain ⟨w, hw, e1⟩ := flat_defect (LU := LU) h f xl ul e (v t) _ _ t (hreg t ht) (hxl t ht) hd
    by_cases htf : 0 < tf
    · have hU : UniqueDiffWithinAt ℝ (Set.Icc 0 tf) t := uniqueDiffOn_Icc htf t ht
      rw [h.vel_unique hU hx hw, sub_self, Matrix.mulVec_zero] at e1
      rw [sub_eq_zero.1 e1.symm]
      exact hd
    · have : Set.Icc 0 tf = {t} := by
        obtain ⟨h0, h1⟩ := ht
        have : tf = 0 := by linarith
        subst this
        rw [Set.Icc_self, le_antisymm h1 h0]
      rw [this]
      have hF : HasFDerivWithinAt e (ContinuousLinearMap.toSpanSingleton ℝ (dynVal LX LU f xl ul t (e t) (v t))) {t} t :=
        HasFDerivWithinAt.of_subsingleton Set.subsingleton_singleton
      simpa using hF.hasDerivWithinAt
  · intro hd
    obtain ⟨w, hw, e1⟩ := flat_defect (LU := LU) h f xl ul e (v t) _ _ t (hreg t ht) (hxl t ht) hd
    rw [sub_self, h.drExpinv _ (hreg t ht)] at e1
    have e2 := congrArg (fun b => LX.drExp (e t) *ᵥ b) e1
    simp only [Matrix.mulVec_mulVec, Matrix.mul_nonsing_inv _ (hreg t ht), Matrix.one_mulVec, Matrix.mulVec_zero] at e2
    rw [sub_eq_zero.1 e2]
    exact hw

/-- **C35.** A trajectory of the flattened problem is admissible exactly when the corresponding trajectory `xl ⊕ e`, `ul ⊕ v` of the original
problem is, and the two have the same cost. -/
theorem flatten_equivalent (h : IsLie LX mat hat) (ocp : GOCP X U ℝ nx nq ncr nce) (xl : Traj X ℝ nx) (ul : Traj U ℝ nu) (tf : ℝ)
    (e : ℝ → Fin nx → ℝ) (v : ℝ → Fin nu → ℝ) (q : Fin nq → ℝ) (hxl : IsTraj mat hat xl (Set.Icc 0 tf)) (hreg : Regular LX e (Set.Icc 0 tf))
    (hc : ContinuousOn e (Set.Icc 0 tf)) :
    (Admissible ocp mat hat tf (fun s => LX.rplus (xl.val s) (e s)) (fun s => LU.rplus (ul.val s) (v s)) q ↔
      FlatAdmissible (flattenOCP LX LU ocp xl ul) tf e v q) ∧
    cost ocp tf (fun s => LX.rplus (xl.val s) (e s)) q = flatCost (flattenOCP LX LU ocp xl ul) tf e q := by
  refine ⟨⟨fun hA => ⟨fun t ht => ?_, hA.integrals, hA.running, hA.endpoint⟩, fun hA => ⟨fun t ht => ?_, hA.integrals, hA.running, hA.endpoint⟩⟩, rfl⟩
  · exact (flat_dynamics h ocp.f xl ul tf e v hxl hreg hc t ht).1 (hA.dynamics t ht)
  · exact (flat_dynamics h ocp.f xl ul tf e v hxl hreg hc t ht).2 (hA.dynamics t ht)

/-- **C35.** `unflatten_ocpsol` of an admissible solution of the flattened problem is admissible for the original problem, with the same times,
integrals and cost, and it carries the same multipliers. -/
theorem unflatten_admissible (h : IsLie LX mat hat) (ocp : GOCP X U ℝ nx nq ncr nce) (xl : Traj X ℝ nx) (ul : Traj U ℝ nu)
    (sol : OCPSol ℝ nx nu nq ncr nce) (e : ℝ → Fin nx → ℝ) (v : ℝ → Fin nu → ℝ) (hx : ∀ t ∈ Set.Icc 0 sol.tf, sol.x t = some (e t))
    (hu : ∀ t ∈ Set.Icc 0 sol.tf, sol.u t = some (v t)) (hxl : IsTraj mat hat xl (Set.Icc 0 sol.tf)) (hreg : Regular LX e (Set.Icc 0 sol.tf))
    (hA : FlatAdmissible (flattenOCP LX LU ocp xl ul) sol.tf e v sol.Q) :
    ∃ (x : ℝ → X) (u : ℝ → U), (∀ t ∈ Set.Icc 0 sol.tf, (unflattenOcpsol LX LU sol xl.val ul.val).x t = some (x t)) ∧
      (∀ t ∈ Set.Icc 0 sol.tf, (unflattenOcpsol LX LU sol xl.val ul.val).u t = some (u t)) ∧
      Admissible ocp mat hat (unflattenOcpsol LX LU sol xl.val ul.val).tf x u (unflattenOcpsol LX LU sol xl.val ul.val).Q ∧
      cost ocp (unflattenOcpsol LX LU sol xl.val ul.val).tf x (unflattenOcpsol LX LU sol xl.val ul.val).Q =
        flatCost (flattenOCP LX LU ocp xl ul) sol.tf e sol.Q ∧
      (unflattenOcpsol LX LU sol xl.val ul.val).t0 = sol.t0 ∧ (unflattenOcpsol LX LU sol xl.val ul.val).tf = sol.tf ∧
      (unflattenOcpsol LX LU sol xl.val ul.val).lambda_q = sol.lambda_q ∧ (unflattenOcpsol LX LU sol xl.val ul.val).lambda_ce = sol.lambda_ce ∧
      (unflattenOcpsol LX LU sol xl.val ul.val).lambda_dyn = sol.lambda_dyn ∧ (unflattenOcpsol LX LU sol xl.val ul.val).lambda_cr = sol.lambda_cr := by
  have hc : ContinuousOn e (Set.Icc 0 sol.tf) := fun t ht => (hA.dynamics t ht).continuousWithinAt
  have := flatten_equivalent (LU := LU) h ocp xl ul sol.tf e v sol.Q hxl hreg hc
  refine ⟨_, _, fun t ht => ?_, fun t ht => ?_, this.1.2 hA, this.2, rfl, rfl, rfl, rfl, rfl, rfl⟩
  · change (sol.x t).map _ = _
    rw [hx t ht]; rfl
  · change (sol.u t).map _ = _
    rw [hu t ht]; rfl

/-- **C35.** A solution of the flattened problem that is optimal among the regular ones gives an optimal solution of the original problem among all
trajectories that can be written as `xl ⊕ e`, `ul ⊕ v` with a continuous regular `e`. -/
theorem unflatten_optimal (h : IsLie LX mat hat) (ocp : GOCP X U ℝ nx nq ncr nce) (xl : Traj X ℝ nx) (ul : Traj U ℝ nu) (S : Set ℝ)
    (tf : ℝ) (e : ℝ → Fin nx → ℝ) (v : ℝ → Fin nu → ℝ) (q : Fin nq → ℝ) (hS : ∀ T ∈ S, IsTraj mat hat xl (Set.Icc 0 T)) (htf : tf ∈ S)
    (hreg : Regular LX e (Set.Icc 0 tf)) (hA : FlatAdmissible (flattenOCP LX LU ocp xl ul) tf e v q)
    (hopt : ∀ tf' ∈ S, ∀ e' v' q', Regular LX e' (Set.Icc 0 tf') → FlatAdmissible (flattenOCP LX LU ocp xl ul) tf' e' v' q' →
      flatCost (flattenOCP LX LU ocp xl ul) tf e q ≤ flatCost (flattenOCP LX LU ocp xl ul) tf' e' q') :
    Admissible ocp mat hat tf (fun s => LX.rplus (xl.val s) (e s)) (fun s => LU.rplus (ul.val s) (v s)) q ∧
    ∀ tf' ∈ S, ∀ (e' : ℝ → Fin nx → ℝ) (v' : ℝ → Fin nu → ℝ) (q' : Fin nq → ℝ), ContinuousOn e' (Set.Icc 0 tf') → Regular LX e' (Set.Icc 0 tf') →
      Admissible ocp mat hat tf' (fun s => LX.rplus (xl.val s) (e' s)) (fun s => LU.rplus (ul.val s) (v' s)) q' →
      cost ocp tf (fun s => LX.rplus (xl.val s) (e s)) q ≤ cost ocp tf' (fun s => LX.rplus (xl.val s) (e' s)) q' := by
  have hc : ContinuousOn e (Set.Icc 0 tf) := fun t ht => (hA.dynamics t ht).continuousWithinAt
  refine ⟨(flatten_equivalent h ocp xl ul tf e v q (hS tf htf) hreg hc).1.2 hA, fun tf' htf' e' v' q' hc' hreg' hA' => ?_⟩
  have h1 := flatten_equivalent (LU := LU) h ocp xl ul tf' e' v' q' (hS tf' htf') hreg' hc'
  exact hopt tf' htf' e' v' q' hreg' (h1.1.1 hA')

end Verif.Flatten
