import Verif.Props.LQSolve
import Verif.Props.QPUpper
import Verif.Props.MPCExamples
import Verif.Props.MPCOnDesired
import Verif.Props.OCPNLPExamples

/-! # A linear-quadratic problem that is never solved (C102) -/

namespace Verif.OQP

open Matrix Verif.Mesh Verif.Sparse Verif.MeshFn Verif.NLP Verif.QP Verif.QPSpec
open Verif.MPC (pbmOf oneMesh)

/-- Minimise `∫ (x + u)²` with `x' = u`, `-10 ≤ u ≤ 10`, `x(0) = 1`. -/
noncomputable def crossOCP : OCP ℝ 1 1 1 1 1 where
  theta := drE fun p _ => p (.q 0)
  f := drOf fun p _ => p (.u 0)
  g := drOf fun p _ => (p (.x 0) + p (.u 0)) * (p (.x 0) + p (.u 0))
  cr := drOf fun p _ => p (.u 0)
  crl := fun _ => .fin (-10)
  cru := fun _ => .fin 10
  ce := drE fun p _ => p (.x0 0)
  cel := fun _ => .fin 1
  ceu := fun _ => .fin 1

theorem crossOCP_dr : IsDrOCP crossOCP where
  theta := drE_isDr fun _ => by fun_prop
  f := drOf_isDr fun _ => by fun_prop
  g := drOf_isDr fun _ => by fun_prop
  cr := drOf_isDr fun _ => by fun_prop
  ce := drE_isDr fun _ => by fun_prop

theorem crossOCP_lq : IsLQ crossOCP 1 := by
  refine ⟨fun k p d _ s => ?_, fun k p d _ s => ?_, fun p d _ => ?_, fun k p d _ s => ?_, fun k e c => ?_, fun p d _ s => ?_, fun e c => ?_⟩
  · simp [crossOCP, drOf]
  · simp [crossOCP, drOf]
  · refine ⟨2 * (p (.x 0) + p (.u 0)) * (d (.x 0) + d (.u 0)), (d (.x 0) + d (.u 0)) ^ 2, fun s => ?_⟩
    simp only [crossOCP, drOf, Pi.add_apply, Pi.smul_apply, smul_eq_mul]
    ring
  · simp [crossOCP, drE]
  · simp [crossOCP, drE]
  · simp [crossOCP, drE]
  · simp [crossOCP, drE]

theorem crossOCP_convex : ConvexIn SameTime fun p => crossOCP.g.val p 0 := by
  intro p d _
  simp only [crossOCP, drOf, Pi.add_apply, Pi.sub_apply]
  nlinarith [sq_nonneg (d (.x 0) + d (.u 0))]

/-- The linearisation: zero. -/
def crossLin : Lin ℝ 1 1 := ⟨fun _ _ => 0, fun _ _ => 0, fun _ _ => 0⟩

theorem crossLin_onMesh : OnMesh (lowEnv ℝ) oneMesh crossLin 1 := by
  intro i k
  simp only [crossLin, ite_self, mul_zero]
  exact MPC.slope_zero _ _ _

theorem oneMesh_valid : Valid 1 1 oneMesh := by
  refine ⟨by simp, by simp, ?_, ?_⟩ <;> intro v hv <;> simp at hv <;> subst hv <;> norm_num

/-- The only node. -/
def node0 : Fin (nColloc oneMesh) := ⟨0, Nat.zero_lt_one⟩

theorem sum_one (f : Fin (nColloc oneMesh) → ℝ) : ∑ i, f i = f node0 := Fin.sum_univ_one (M := ℝ) f

theorem cross_objective (z : QVar (nColloc oneMesh) 1 1 → ℝ) : objective crossOCP (nlpPoint (lowEnv ℝ) oneMesh crossOCP crossLin 1 z) =
    (z (.x 0 0) + z (.u node0 0)) ^ 2 := by
  simp only [objective, crossOCP, drE, drOf, NLP.ends, nlpPoint, integralSpec, trajVars, nodePt, crossLin]
  rw [sum_one]
  rw [show ((node0 : Fin (nColloc oneMesh)) : ℕ) = 0 from rfl, MPC.one_w]
  rw [show node0.castSucc = 0 from rfl]
  ring

/-- What is needed of the program: three variables `x0`, `x1`, `u0`, three rows. -/
theorem cross_qp : ∃ qp : QPD ℝ, ocpToQp (lowEnv ℝ) oneMesh crossOCP none 1 crossLin = some qp ∧ Lin.PSD (toPbm qp 3 3).P ∧
    (∀ x : Fin 3 → ℝ, cost (toPbm qp 3 3) x = (x 0 + x 2) ^ 2) ∧ QPSpec.Feasible (toPbm qp 3 3) ![1, 0, -1] ∧
    qp.P.val 1 0 = 0 ∧ qp.P.val 2 0 = 0 ∧ qp.P.val 2 1 = 0 ∧ qp.l.val 0 ≠ .neg ∧ qp.u.val 0 ≠ .pos := by
  have hL : ∀ K, 1 ≤ K → K ≤ 1 + 1 → IsLGR (lowEnv ℝ) K := fun K h1 h2 => lowEnv_lgr K h1 h2
  have hm := oneMesh_valid
  have hm' := hm.ne_nil
  have hK' : ∀ v ∈ oneMesh, 1 ≤ v.K := fun v hv => (hm.degree v hv).1
  obtain ⟨h0, h1, -⟩ := Flatten.tauAt_bounds (lowEnv ℝ) le_rfl oneMesh hm hL
  have hw : ∀ i : Fin (nColloc oneMesh), 0 ≤ wAt (lowEnv ℝ) oneMesh i := fun i => (wAt_pos (lowEnv ℝ) hm hL i).le
  obtain ⟨qp, e, hex, -⟩ := lq_exact (lowEnv ℝ) le_rfl oneMesh hm hL crossOCP crossOCP_dr 1 crossOCP_lq 1 zero_le_one crossLin crossLin_onMesh
  obtain ⟨qp', e', hB⟩ := ocpToQp_built (lowEnv ℝ) oneMesh hm' hK' crossOCP crossOCP_dr none (by intro a h; cases h) 1 crossLin
  obtain rfl : qp' = qp := Option.some.inj (e'.symm.trans e)
  obtain ⟨hpsd, -⟩ := lq_pbm (env := lowEnv ℝ) (lin := crossLin) hm' hK' crossOCP_dr crossOCP_lq zero_le_one zero_le_one hw crossOCP_convex hB fun z x hx => by
    rw [(hex z x hx).2, nlpPoint_objective h0 h1, nlpPoint_objective h0 h1]
  refine ⟨qp', e, hpsd, fun x => ?_, ?_, ?_, ?_, ?_, ?_, ?_⟩
  · obtain ⟨z, hz, -⟩ := (qp_layout (nColloc oneMesh) 1 1 1 1).2.1 x
    refine ((hex z x hz).2).trans ?_
    rw [cross_objective, cross_objective]
    have a : x 0 = z (.x 0 0) := hz (.x 0 0) (by simp [QVar.pos, numV])
    have b : x 2 = z (.u node0 0) := hz (.u node0 0) (show 2 < 3 by norm_num)
    rw [a, b]
    simp
  · have hz : IsPrimal (MPC.dev 1 0 (-1)) (![1, 0, -1] : Fin 3 → ℝ) := by
      intro v hv
      cases v with
      | x i k =>
        obtain ⟨i, hi⟩ := i
        change i < 2 at hi
        fin_cases k
        interval_cases i <;> rfl
      | u i k =>
        obtain ⟨i, hi⟩ := i
        change i < 1 at hi
        fin_cases k
        interval_cases i
        rfl
    refine (hex _ _ hz).1.2 ⟨zero_le_one, fun i k => ?_, fun k => ?_, fun i k => ?_, fun k => ?_⟩
    · obtain ⟨i, hi⟩ := i
      change i < 1 at hi
      interval_cases i
      refine (MPC.slope_one _).trans ?_
      simp [nlpPoint, crossLin, MPC.dev, MPC.oneN, crossOCP, drOf, pt]
    · fin_cases k
      simp [nlpPoint, integralSpec, trajVars]
      rfl
    · simp [nlpPoint, crossLin, MPC.dev, crossOCP, drOf, pt, lower, upper]
      norm_num
    · simp [nlpPoint, crossLin, MPC.dev, crossOCP, drE, NLP.ends, lower, upper]
  · exact (hB.P (.x 1 0) (.x 0 0)).trans (if_neg (show ¬ (1 ≤ 0) by norm_num))
  · exact (hB.P (.u node0 0) (.x 0 0)).trans (if_neg (show ¬ (2 ≤ 0) by norm_num))
  · exact (hB.P (.u node0 0) (.x 1 0)).trans (if_neg (show ¬ (2 ≤ 1) by norm_num))
  · have := hB.dynl node0 0
    change qp'.l.val 0 = _ at this
    rw [this]; simp
  · have := hB.dynu node0 0
    change qp'.u.val 0 = _ at this
    rw [this]; simp

/-- **C102 fails.** The problem is linear-quadratic and convex; the program of `ocp_to_qp` has a solution `x` with multipliers `y`. Started there, the
solver does not say Optimal: it runs into a limit, or for ever. -/
theorem lq_never_optimal : ∃ (ocp : OCP ℝ 1 1 1 1 1) (lin : Lin ℝ 1 1) (qp : QPD ℝ) (x y : Fin 3 → ℝ),
    IsDrOCP ocp ∧ IsLQ ocp 1 ∧ (ConvexIn SameTime fun p => ocp.g.val p 0) ∧ OnMesh (lowEnv ℝ) oneMesh lin 1 ∧
    ocpToQp (lowEnv ℝ) oneMesh ocp none 1 lin = some qp ∧ numV (nColloc oneMesh) 1 1 = 3 ∧ numC (nColloc oneMesh) 1 1 1 = 3 ∧
    KKT (toPbm qp 3 3) x y ∧ Minimiser (toPbm qp 3 3) x ∧
    ∀ (qenv : QP.Env ℝ 3) (prm : Params ℝ), SqrtPos qenv → LdltOk qenv → UpperOnly qenv → 0 < prm.sigma → 0 < prm.rho →
      (∀ p : Pbm ℝ 3 3, Lin.PSD p.P → ∀ s : Scaling ℝ 3 3, s.Pos → qenv.factor _ (kkt prm.sigma p s (rhoVec prm p s)) ≠ none) →
      prm.epsAbs + 2 * prm.epsRel < 2 →
      (∀ fuel sol, solveQP qenv prm (pbmOf qp 3 3) (some (x, y)) fuel = .ok sol →
        (sol.code = .maxIterations ∨ sol.code = .maxTime) ∧ sol.primal = x ∧ sol.dual = y) ∧
      (prm.maxIter = none → prm.maxTime = none → prm.stopCheckIter ≠ 0 → ∀ fuel, solveQP qenv prm (pbmOf qp 3 3) (some (x, y)) fuel = .timeout) := by
  obtain ⟨qp, e, hpsd, hcost, hfeas, h10, h20, h21, hl, hu⟩ := cross_qp
  have hP : ∀ i j : Fin 3, (toPbm qp 3 3).P i j = ((Pi.single i 1 + Pi.single j 1 : Fin 3 → ℝ) 0 + (Pi.single i 1 + Pi.single j 1 : Fin 3 → ℝ) 2) ^ 2 -
      ((Pi.single i 1 : Fin 3 → ℝ) 0 + (Pi.single i 1 : Fin 3 → ℝ) 2) ^ 2 - ((Pi.single j 1 : Fin 3 → ℝ) 0 + (Pi.single j 1 : Fin 3 → ℝ) 2) ^ 2 := by
    intro i j
    rw [cost_cross _ hpsd.1, hcost, hcost, hcost]
  have hq : (toPbm qp 3 3).q = 0 := by
    funext i
    have h1 := hcost (Pi.single i 1)
    have h2 := hP i i
    unfold cost at h1
    simp only [Matrix.mulVec_single_one, single_one_dotProduct, dotProduct_single_one, Matrix.col_apply] at h1
    rw [h2] at h1
    fin_cases i <;> simp at h1 ⊢ <;> linarith
  have hk : KKT (toPbm qp 3 3) ![1, 0, -1] 0 := by
    refine ⟨hfeas, ?_, fun i => by simp⟩
    rw [hq, Matrix.mulVec_zero]
    funext i
    simp only [Matrix.mulVec, dotProduct, Fin.sum_univ_three, Pi.add_apply, hP]
    fin_cases i <;> simp <;> norm_num
  have hsym : symPbm (pbmOf qp 3 3) = toPbm qp 3 3 := rfl
  have hst : ∀ i j : Fin 3, i ≤ j → (pbmOf qp 3 3).P i j = (toPbm qp 3 3).P i j := fun i j hij => (if_pos hij).symm
  have hrow : (pbmOf qp 3 3).P *ᵥ ![1, 0, -1] = ![0, 0, -2] := by
    have s20 : (pbmOf qp 3 3).P 2 0 = 0 := h20
    have s21 : (pbmOf qp 3 3).P 2 1 = 0 := h21
    have s10 : (pbmOf qp 3 3).P 1 0 * 1 + (pbmOf qp 3 3).P 1 1 * 0 + (pbmOf qp 3 3).P 1 2 * -1 = 0 := by
      rw [hst 1 2 (by decide), show (pbmOf qp 3 3).P 1 0 = 0 from h10, hP]; simp
    funext i
    fin_cases i
    · simp only [Matrix.mulVec, dotProduct, Fin.sum_univ_three]
      simp [hst 0 0 (by decide), hst 0 2 (by decide), hP]
    · simp only [Matrix.mulVec, dotProduct, Fin.sum_univ_three]
      simpa using s10
    · simp only [Matrix.mulVec, dotProduct, Fin.sum_univ_three]
      simp [s20, s21, hst 2 2 (by decide), hP]; norm_num
  have hbad : ∀ prm : Params ℝ, prm.epsAbs + 2 * prm.epsRel < 2 → ∀ rd, Tol prm.epsAbs prm.epsRel ((pbmOf qp 3 3).P *ᵥ ![1, 0, -1]) (pbmOf qp 3 3).q
      ((pbmOf qp 3 3).Aᵀ *ᵥ (0 : Fin 3 → ℝ)) rd → ∃ j, rd < |((pbmOf qp 3 3).P *ᵥ ![1, 0, -1]) j + (pbmOf qp 3 3).q j + ((pbmOf qp 3 3).Aᵀ *ᵥ (0 : Fin 3 → ℝ)) j| := by
    intro prm heps rd ⟨a, b, c, ha, hb, hc, hrd⟩
    have hq' : (pbmOf qp 3 3).q = 0 := hq
    rw [hrow] at ha
    rw [hq'] at hb
    rw [Matrix.mulVec_zero] at hc
    have a2 : a = 2 := by
      rcases ha with ⟨h1, h2, h3⟩
      have := h2 2
      simp at this
      rcases h3 with rfl | ⟨i, rfl⟩
      · norm_num at this
      · fin_cases i <;> simp at this ⊢ <;> linarith
    have b0 : b = 0 := by
      rcases hb with ⟨h1, h2, h3 | ⟨i, h3⟩⟩
      · exact h3
      · simpa using h3
    have c0 : c = 0 := by
      rcases hc with ⟨h1, h2, h3 | ⟨i, h3⟩⟩
      · exact h3
      · simpa using h3
    refine ⟨2, ?_⟩
    rw [hrow, hq', Matrix.mulVec_zero, hrd, a2, b0, c0]
    simp
    linarith
  refine ⟨crossOCP, crossLin, qp, ![1, 0, -1], 0, crossOCP_dr, crossOCP_lq, crossOCP_convex, crossLin_onMesh, e, rfl, rfl, hk, kkt_minimiser hpsd hk,
    fun qenv prm hsq hld hup hsig hr hf heps => ?_⟩
  have hf' : ∀ s : Scaling ℝ 3 3, s.Pos → qenv.factor 3 (kkt prm.sigma (pbmOf qp 3 3) s (rhoVec prm (pbmOf qp 3 3) s)) ≠ none := by
    intro s hs
    rw [hup _ _ (kkt prm.sigma (symPbm (pbmOf qp 3 3)) s (rhoVec prm (pbmOf qp 3 3) s)) (kkt_symPbm _ _ _ _).symm]
    exact hf (toPbm qp 3 3) hpsd s hs
  exact ⟨fun fuel sol hsol => qp_upper_stuck (p := pbmOf qp 3 3) hsq hld hpsd hsig hr hf' hk (hbad prm heps) (i₀ := 0) hl hu sol hsol,
    fun h1 h2 h3 fuel => qp_upper_never_returns (p := pbmOf qp 3 3) hsq hld hpsd hsig hr hf' hk (hbad prm heps) (i₀ := 0) hl hu h3 h1 h2 (fun _ => ⟨by norm_num, by norm_num⟩) fuel⟩

/-- The default parameters and an exact factorisation meet the assumptions: a run that does not end. -/
example : ∃ (ocp : OCP ℝ 1 1 1 1 1) (lin : Lin ℝ 1 1) (qp : QPD ℝ) (x y : Fin 3 → ℝ), ocpToQp (lowEnv ℝ) oneMesh ocp none 1 lin = some qp ∧ Minimiser (toPbm qp 3 3) x ∧
    ∀ fuel, solveQP ⟨Real.sqrt, 0, exactFactor, 0, fun _ => 0⟩ Params.default (pbmOf qp 3 3) (some (x, y)) fuel = .timeout := by
  have h1 : SqrtPos (⟨Real.sqrt, 0, exactFactor, 0, fun _ => 0⟩ : QP.Env ℝ 3) := fun x hx => Real.sqrt_pos.2 hx
  have h2 : LdltOk (⟨Real.sqrt, 0, exactFactor, 0, fun _ => 0⟩ : QP.Env ℝ 3) := fun _ _ _ h b => exactFactor_ok h b
  have h3 : UpperOnly (⟨Real.sqrt, 0, exactFactor, 0, fun _ => 0⟩ : QP.Env ℝ 3) := fun k H H' h => by simp only [exactFactor, h]
  obtain ⟨ocp, lin, qp, x, y, -, -, -, -, e, -, -, -, hmin, h⟩ := lq_never_optimal
  exact ⟨ocp, lin, qp, x, y, e, hmin, (h _ Params.default h1 h2 h3 (by norm_num [Params.default]) (by norm_num [Params.default])
    (fun p hP s hs => exactFactor_ne_none hP hs (by norm_num [Params.default]) fun i => rhoOf_pos (by norm_num [Params.default]) _ _)
    (by norm_num [Params.default])).2 rfl rfl (by norm_num [Params.default])⟩

end Verif.OQP
