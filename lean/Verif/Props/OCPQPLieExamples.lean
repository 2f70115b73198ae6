import Verif.Props.OCPQPLieCost
import Verif.Props.OCPQPExamples
import Verif.Props.FlattenExamples

/-! # Examples for the quadratic program on Lie groups, a problem for which its cost is wrong, and the returned trajectory (C81-C83) -/

namespace Verif.OQP

open Verif.Mesh Verif.Sparse Verif.MeshFn Verif.NLP Verif.QP Verif.QPSpec Verif.Lie Verif.Flatten
open scoped Matrix

section

attribute [local instance] Matrix.linftyOpNormedRing Matrix.linftyOpNormedAlgebra Matrix.linftyOpNormedSpace Matrix.linftyOpNormedAddCommGroup

/-- The linearisation of the examples: along the first axis of the Heisenberg group. -/
def exGLin : GLin (Fin 3 → ℝ) (Fin 1 → ℝ) ℝ 3 := ⟨fun t => ![t, 0, 0], fun _ => ![1, 0, 0], fun _ => 0⟩

/-- C81 applies to a problem on a group that does not commute. -/
example : ∃ qp, ocpToQpG 1 0 0 (lowEnv ℝ) exMesh heis false exG 2 exGLin = some qp ∧
    HasSize qp (numV (nColloc exMesh) 3 1) (numC (nColloc exMesh) 3 1 2) ∧ ∀ (z : QVar (nColloc exMesh) 3 1 → ℝ) x, IsPrimal z x →
      (QPSpec.Feasible (toPbm qp (numV (nColloc exMesh) 3 1) (numC (nColloc exMesh) 3 1 2)) x ↔
        LinFeasibleG heis (vec ℝ 1) (lowEnv ℝ) exMesh exG 2 exGLin z) :=
  ocp_qp_feasible_lie heis_isLie (vec_isLie 1) 0 0 (lowEnv ℝ) exMesh (by simp [exMesh]) exMesh_K false (by simp) exG exG_dr 2 exGLin

/-! ### The third coordinate as running cost -/

/-- `g(x) = x₂`: the right derivatives of `x₂` are `(0, x₀, 1)`, and those of `x₀` are `(1, 0, 0)`. -/
noncomputable def g2 : GFn (Fin 3 → ℝ) (Fin 1 → ℝ) ℝ 1 where
  val _ x _ _ := x 2
  jac _ x _ := dense 1 5 fun _ b => if b = 2 then x 0 else if b = 3 then 1 else 0
  hess _ _ _ := dense 5 5 fun a b => if a = 2 ∧ b = 1 then 1 else 0

/-- Minimise `∫ x₂`, otherwise as in `exG`. -/
noncomputable def exG2 : GOCP (Fin 3 → ℝ) (Fin 1 → ℝ) ℝ 3 1 1 2 := { exG with g := g2 }

theorem g2_along (lin : GLin (Fin 3 → ℝ) (Fin 1 → ℝ) ℝ 3) (t : ℝ) : (fun δ => along heis (vec ℝ 1) g2 lin t δ 0) =
    fun δ => lin.x t 2 + (δ (.x 2) + δ (.x 0) * δ (.x 1) / 2) + lin.x t 0 * δ (.x 1) := by
  funext δ
  simp [along, g2, heis]

theorem coord_fderiv (a : Arg 3 1) (z : Arg 3 1 → ℝ) : HasFDerivAt (fun δ : Arg 3 1 → ℝ => δ a) (ContinuousLinearMap.proj (R := ℝ) (φ := fun _ => ℝ) a) z :=
  (ContinuousLinearMap.proj (R := ℝ) (φ := fun _ : Arg 3 1 => ℝ) a).hasFDerivAt

theorem g2_fderiv (c d : ℝ) (z : Arg 3 1 → ℝ) : HasPd (fun δ : Arg 3 1 → ℝ => c + (δ (.x 2) + δ (.x 0) * δ (.x 1) / 2) + d * δ (.x 1))
    (fun a => if a = .x 2 then 1 else if a = .x 1 then z (.x 0) / 2 + d else if a = .x 0 then z (.x 1) / 2 else 0) z := by
  have h := (((coord_fderiv (.x 2) z).add (((coord_fderiv (.x 0) z).mul (coord_fderiv (.x 1) z)).mul_const (1 / 2))).const_add c).add
    ((coord_fderiv (.x 1) z).const_mul d)
  have e : (fun δ : Arg 3 1 → ℝ => c + (δ (.x 2) + δ (.x 0) * δ (.x 1) / 2) + d * δ (.x 1)) =
      fun δ => c + (δ (.x 2) + δ (.x 0) * δ (.x 1) * (1 / 2)) + d * δ (.x 1) := by funext δ; ring
  rw [e]
  refine ⟨_, h, fun a => ?_⟩
  cases a with
  | t => simp
  | u k => simp
  | x k => fin_cases k <;> simp [Pi.single_apply] <;> ring

theorem g2_dr : IsDrG heis (vec ℝ 1) g2 where
  jac_rows _ _ _ := rfl
  jac_cols _ _ _ := rfl
  hess_rows _ _ _ := rfl
  hess_cols _ _ _ := rfl
  jac_val p j := by
    have e : (fun δ => g2.val (move heis (vec ℝ 1) p δ).1 (move heis (vec ℝ 1) p δ).2.1 (move heis (vec ℝ 1) p δ).2.2 j) =
        fun δ : Arg 3 1 → ℝ => p.2.1 2 + (δ (.x 2) + δ (.x 0) * δ (.x 1) / 2) + p.2.1 0 * δ (.x 1) := by
      funext δ
      simp [g2, move, heis]
    obtain ⟨D, h1, h2⟩ := g2_fderiv (p.2.1 2) (p.2.1 0) 0
    refine ⟨D, ?_, fun a => ?_⟩
    · change HasFDerivAt (fun δ => g2.val (move heis (vec ℝ 1) p δ).1 (move heis (vec ℝ 1) p δ).2.1 (move heis (vec ℝ 1) p δ).2.2 j) D 0
      rw [e]
      exact h1
    · rw [h2]
      cases a with
      | t => simp [g2, dense, Sp.val, Arg.pos]
      | u k => fin_cases k; simp [g2, dense, Sp.val, Arg.pos]
      | x k => fin_cases k <;> simp [g2, dense, Sp.val, Arg.pos]
  hess_val p j a := by
    have e : (fun δ => (g2.jac (move heis (vec ℝ 1) p δ).1 (move heis (vec ℝ 1) p δ).2.1 (move heis (vec ℝ 1) p δ).2.2).val j a.pos) =
        fun δ : Arg 3 1 → ℝ => (if a = .x 1 then p.2.1 0 else if a = .x 2 then 1 else 0) + (if a = .x 1 then 1 else 0) * δ (.x 0) := by
      funext δ
      cases a with
      | t => simp [g2, dense, Sp.val, Arg.pos]
      | u k => fin_cases k; simp [g2, dense, Sp.val, Arg.pos]
      | x k => fin_cases k <;> simp [g2, dense, Sp.val, Arg.pos, move, heis]
    have h := ((coord_fderiv (.x 0) 0).const_mul (if a = .x 1 then 1 else 0)).const_add (if a = .x 1 then p.2.1 0 else if a = .x 2 then 1 else 0)
    refine ⟨(if a = .x 1 then (1 : ℝ) else 0) • ContinuousLinearMap.proj (R := ℝ) (φ := fun _ => ℝ) (Arg.x 0), ?_, fun b => ?_⟩
    · change HasFDerivAt (fun δ => (g2.jac (move heis (vec ℝ 1) p δ).1 (move heis (vec ℝ 1) p δ).2.1 (move heis (vec ℝ 1) p δ).2.2).val j a.pos) _ 0
      rw [e]
      exact h
    · cases a with
      | t => simp [g2, dense, Sp.val, Arg.pos]; split_ifs <;> rfl
      | u k => fin_cases k; simp [g2, dense, Sp.val, Arg.pos]; split_ifs <;> rfl
      | x k =>
        cases b with
        | t => fin_cases k <;> simp [g2, dense, Sp.val, Arg.pos]
        | u l => fin_cases k <;> fin_cases l <;> simp [g2, dense, Sp.val, Arg.pos]
        | x l => fin_cases k <;> fin_cases l <;> simp [g2, dense, Sp.val, Arg.pos]
  hess_cont p j a b := continuousAt_const

theorem exG2_dr : IsDrGOCP heis (vec ℝ 1) exG2 := ⟨exG_dr.theta, exG_dr.f, g2_dr, exG_dr.cr, exG_dr.ce⟩

theorem exG2_linear : LinearInIntegralG exG2.theta 1 := by
  intro t x y q c
  simp [exG2, exG, gOfE, exTheta, ept]

theorem exG2_ends (lin : GLin (Fin 3 → ℝ) (Fin 1 → ℝ) ℝ 3) (tf : ℝ) : (fun δ => ends heis exG2.theta lin tf δ 0) = fun δ : EArg 3 1 → ℝ => 1 + δ (.q 0) := by
  funext δ
  simp [ends, exG2, exG, gOfE, exTheta, ept]

theorem exG2_ends_pd (lin : GLin (Fin 3 → ℝ) (Fin 1 → ℝ) ℝ 3) (tf : ℝ) (a : EArg 3 1) (p : EArg 3 1 → ℝ) :
    pd (fun δ => ends heis exG2.theta lin tf δ 0) a p = if EArg.q 0 = a then 1 else 0 := by
  rw [exG2_ends, pd_add (f := fun _ : EArg 3 1 → ℝ => 1) (g := fun δ => δ (.q 0)) (differentiableAt_const _) (by fun_prop), pd_const, pd_coord, zero_add]

theorem exG2_second (lin : GLin (Fin 3 → ℝ) (Fin 1 → ℝ) ℝ 3) (tf : ℝ) (d : EArg 3 1 → ℝ) : second (fun δ => ends heis exG2.theta lin tf δ 0) 0 d = 0 := by
  unfold second
  have : (fun y => fderiv ℝ (fun δ => ends heis exG2.theta lin tf δ 0) y d) = fun _ => ∑ a, (if EArg.q 0 = a then 1 else 0) * d a := by
    funext y
    rw [fderiv_pd]
    simp only [exG2_ends_pd]
  rw [this]
  simp

/-- Reading only the upper triangle loses `x₀ x₁`. -/
theorem exG2_skew (z : QVar (nColloc exMesh) 3 1 → ℝ) (lin : GLin (Fin 3 → ℝ) (Fin 1 → ℝ) ℝ 3) (tf : ℝ) :
    skewCost heis (vec ℝ 1) (lowEnv ℝ) exMesh exG2 lin tf 1 z =
      ∑ i : Fin (nColloc exMesh), wAt (lowEnv ℝ) exMesh i * (tf * -(z (.x i.castSucc 0) * z (.x i.castSucc 1))) := by
  have hv : ∀ (J d : Fin 1 → ℝ), skew (vec ℝ 1) J d = 0 := fun J d => skew_zero _ _ _ (.inr fun _ => rfl)
  have he : ∀ d : Fin 3 → ℝ, skew heis (fun k => pd (fun δ => ends heis exG2.theta lin tf δ 0) (.x0 k) 0) d = 0 := fun d =>
    skew_zero _ _ _ (.inl (by funext k; rw [exG2_ends_pd]; simp))
  have hf : ∀ d : Fin 3 → ℝ, skew heis (fun k => pd (fun δ => ends heis exG2.theta lin tf δ 0) (.xf k) 0) d = 0 := fun d =>
    skew_zero _ _ _ (.inl (by funext k; rw [exG2_ends_pd]; simp))
  have hg : ∀ t (d : Fin 3 → ℝ), skew heis (fun k => pd (fun δ => along heis (vec ℝ 1) exG2.g lin t δ 0) (.x k) 0) d = -(d 0 * d 1) := by
    intro t d
    have e : ∀ k, pd (fun δ => along heis (vec ℝ 1) exG2.g lin t δ 0) (.x k) 0 = if k = 2 then 1 else if k = 1 then lin.x t 0 else 0 := by
      intro k
      change pd (fun δ => along heis (vec ℝ 1) g2 lin t δ 0) (.x k) 0 = _
      rw [g2_along, (g2_fderiv _ _ 0).pd]
      fin_cases k <;> simp
    unfold skew
    simp only [e]
    simp [Fin.sum_univ_succ, heis, heisAd]
  unfold skewCost
  simp only [hv, he, hf, hg]
  simp

/-- **C82 fails** on a group that does not commute. Minimise `∫ x₂` on the Heisenberg group, around the identity: no constant makes the objective of the
program the second-order expansion of the cost. -/
theorem ocp_qp_cost_lie_wrong : ∃ (ocp : GOCP (Fin 3 → ℝ) (Fin 1 → ℝ) ℝ 3 1 1 2) (m : Mesh ℝ) (env : Mesh.Env ℝ) (lin : GLin (Fin 3 → ℝ) (Fin 1 → ℝ) ℝ 3) (qp : QPD ℝ),
    IsDrGOCP heis (vec ℝ 1) ocp ∧ LinearInIntegralG ocp.theta 1 ∧ (∀ d, second (fun δ => ends heis ocp.theta lin 1 δ 0) 0 d = 0) ∧
    ocpToQpG 1 0 0 env m heis false ocp 1 lin = some qp ∧
    ¬∃ c, ∀ (z : QVar (nColloc m) 3 1 → ℝ) x, IsPrimal z x → QPSpec.cost (toPbm qp (numV (nColloc m) 3 1) (numC (nColloc m) 3 1 2)) x =
      c + fderiv ℝ (trajCostG heis (vec ℝ 1) env m ocp lin 1) 0 z + second (trajCostG heis (vec ℝ 1) env m ocp lin 1) 0 z / 2 := by
  obtain ⟨qp, e, h⟩ := ocp_qp_cost_lie_partial heis_isLie (vec_isLie 1) 0 0 (lowEnv ℝ) exMesh (by simp [exMesh]) exMesh_K false exG2 exG2_dr 1
    ⟨fun _ => 0, fun _ => 0, fun _ => 0⟩ 1 exG2_linear
  refine ⟨exG2, exMesh, lowEnv ℝ, _, qp, exG2_dr, exG2_linear, exG2_second _ _, e, ?_⟩
  rintro ⟨c, hc⟩
  obtain ⟨x0, hx0, -⟩ := (qp_layout (nColloc exMesh) 3 1 1 2).1 fun _ => 0
  obtain ⟨x1, hx1, -⟩ := (qp_layout (nColloc exMesh) 3 1 1 2).1 fun _ => 1
  have a0 := h _ _ hx0
  have a1 := h _ _ hx1
  rw [hc _ _ hx0, exG2_second, exG2_skew] at a0
  rw [hc _ _ hx1, exG2_second, exG2_skew] at a1
  have hpos : 0 < ∑ i : Fin (nColloc exMesh), wAt (lowEnv ℝ) exMesh i :=
    Finset.sum_pos (fun i _ => wAt_pos (lowEnv ℝ) exMesh_valid (fun K h1 h2 => lowEnv_lgr K h1 h2) i) ⟨⟨0, by rw [exMesh_N]; norm_num⟩, Finset.mem_univ _⟩
  simp only [mul_zero, neg_zero, Finset.sum_const_zero, mul_one, mul_neg, Finset.sum_neg_distrib] at a0 a1
  linarith

/-- The cost of `exG` does not depend on the state, so that for it the objective is right. -/
example : ∃ qp, ocpToQpG 1 0 0 (lowEnv ℝ) exMesh heis false exG 2 exGLin = some qp ∧ ∀ (z : QVar (nColloc exMesh) 3 1 → ℝ) x, IsPrimal z x →
      QPSpec.cost (toPbm qp (numV (nColloc exMesh) 3 1) (numC (nColloc exMesh) 3 1 2)) x =
        fderiv ℝ (trajCostG heis (vec ℝ 1) (lowEnv ℝ) exMesh exG exGLin 2) 0 z + second (trajCostG heis (vec ℝ 1) (lowEnv ℝ) exMesh exG exGLin 2) 0 z / 2 := by
  refine ocp_qp_cost_lie_exact heis_isLie (vec_isLie 1) 0 0 (lowEnv ℝ) exMesh (by simp [exMesh]) exMesh_K false exG exG_dr 2 exGLin 1 exG2_linear
    (exG2_second _ _) (.inr ⟨fun t k => ?_, fun k => ?_, fun k => ?_⟩) (.inl fun _ => rfl)
  · have e : (fun δ => along heis (vec ℝ 1) exG.g exGLin t δ 0) = fun δ : Arg 3 1 → ℝ => δ (.u 0) * δ (.u 0) := by
      funext δ
      simp [along, exG, gOf, exG1, pt, vec, exGLin]
    rw [e, pd_mul (f := fun δ : Arg 3 1 → ℝ => δ (.u 0)) (g := fun δ => δ (.u 0)) (by fun_prop) (by fun_prop), pd_coord]
    simp
  · exact (exG2_ends_pd exGLin 2 (.x0 k) 0).trans (by simp)
  · exact (exG2_ends_pd exGLin 2 (.xf k) 0).trans (by simp)

end

/-! ### The returned trajectory -/

section

variable {X U : Type*} {nx nu : ℕ}

/-- **C83.** On a mesh of LGR intervals, with a nonzero final time, the trajectory that `qpsol_to_ocpsol` returns on Lie groups is, at the time of every
node, the linearisation moved by `⊕` with the deviation that the solution of the program holds for the node; the input likewise at the collocation
points. -/
theorem qpsol_nodes_lie (LX : LieOps X ℝ nx) (LU : LieOps U ℝ nu) (env : Mesh.Env ℝ) (hB : IsLagrange env) (hS : IsSearch env) (Kmin Kmax : ℕ)
    (h1 : 1 ≤ Kmin) (m : Mesh ℝ) (hm : Valid Kmin Kmax m) (hL : ∀ K, Kmin ≤ K → K ≤ Kmax + 1 → IsLGR env K) (primal : Vec ℝ) (tf : ℝ)
    (htf : tf ≠ 0) (lin : GLin X U ℝ nx) (z : QVar (nColloc m) nx nu → ℝ) (hz : ∀ v, primal.val v.pos = z v) :
    (∀ i : Fin (nColloc m + 1), (qpsolToOcpsolG LX LU env m primal tf lin).1 (tf * tauAt env m i) =
      some (LX.rplus (lin.x (tf * tauAt env m i)) fun k => z (.x i k))) ∧
    (∀ i : Fin (nColloc m), (qpsolToOcpsolG LX LU env m primal tf lin).2 (tf * tauAt env m i) =
      some (LU.rplus (lin.u (tf * tauAt env m i)) fun k => z (.u i k))) := by
  obtain ⟨hnl, -⟩ := nodes_complete env Kmin Kmax h1 m hm hL
  have hnode : ∀ i, i < nColloc m + 1 → (allNodes env m)[i]? = some (tauAt env m i) := by
    intro i hi
    simp only [tauAt, List.getD_eq_getElem?_getD]
    rw [List.getElem?_eq_getElem (by rw [hnl]; exact hi)]
    rfl
  have hdiv : ∀ t : ℝ, (tf * t - 0) / (tf - 0) = t := by intro t; field_simp; ring
  constructor
  · intro i
    unfold qpsolToOcpsolG
    simp only
    rw [hdiv, eval_interpolates env hB hS Kmin Kmax m hm hL _ (by rw [cols, List.length_map, List.length_range, hnl]) i _ (hnode i i.2),
      cols_get _ _ _ _ _ i.2, Option.map_some]
    congr 2
    funext k
    rw [← hz (.x i k)]
    simp only [QVar.pos, xvarB, Nat.zero_add]
  · intro i
    unfold qpsolToOcpsolG
    simp only
    rw [hdiv, eval_interpolates_open env hB hS Kmin Kmax h1 m hm hL _ (by simp [cols]) i i.2 _ (hnode i (by omega)),
      cols_get _ _ _ _ _ i.2, Option.map_some]
    congr 2
    funext k
    rw [← hz (.u i k)]
    simp only [QVar.pos, uvarB, xvarL, Nat.add_assoc]

/-- On the Heisenberg group, around `x = (t, 0, 0)`, at `tf = 2`. -/
example (primal : Vec ℝ) (z : QVar (nColloc exMesh) 3 1 → ℝ) (hz : ∀ v, primal.val v.pos = z v) (i : Fin (nColloc exMesh)) :
    (qpsolToOcpsolG heis (vec ℝ 1) (lowEnv ℝ) exMesh primal 2 exGLin).1 (2 * tauAt (lowEnv ℝ) exMesh i) =
      some ![2 * tauAt (lowEnv ℝ) exMesh i + z (.x i.castSucc 0), z (.x i.castSucc 1),
        z (.x i.castSucc 2) + z (.x i.castSucc 0) * z (.x i.castSucc 1) / 2 + 2 * tauAt (lowEnv ℝ) exMesh i * z (.x i.castSucc 1)] := by
  have h := (qpsol_nodes_lie heis (vec ℝ 1) (lowEnv ℝ) lowEnv_lagrange lowEnv_search 1 1 le_rfl exMesh exMesh_valid
    (fun K h1 h2 => lowEnv_lgr K h1 h2) primal 2 two_ne_zero exGLin z hz).1 i.castSucc
  refine h.trans ?_
  simp [heis, exGLin]

end

end Verif.OQP
