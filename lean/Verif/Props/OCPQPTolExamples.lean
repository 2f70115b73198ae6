import Verif.Props.OCPQPTol
import Verif.Props.NLPTol
import Verif.Props.QPZero

/-! # A nonlinear constraint: the remainder is attained, the solver finds an Optimal result (C139) -/

set_option linter.unusedSectionVars false

namespace Verif.OQP

open Verif.Mesh Verif.Sparse Verif.MeshFn Verif.NLP Verif.QP Verif.QPSpec
open Verif.MPC (pbmOf)
open scoped Matrix

/-- Nothing moves and nothing costs; the square of the input has to be nonpositive. -/
noncomputable def curved : OCP ℝ 1 1 1 1 1 := { idle with cr := drOf fun p _ => p (.u 0) * p (.u 0) }

theorem curved_dr : IsDrOCP curved where
  theta := drE_isDr (f := fun _ _ => 0) fun _ => by fun_prop
  f := drOf_isDr (f := fun _ _ => 0) fun _ => by fun_prop
  g := drOf_isDr (f := fun _ _ => 0) fun _ => by fun_prop
  cr := drOf_isDr (f := fun p _ => p (.u 0) * p (.u 0)) fun _ => by fun_prop
  ce := drE_isDr (f := fun _ _ => 0) fun _ => by fun_prop

/-- At rest, with the input `a`. -/
def rest (a : ℝ) : Lin ℝ 1 1 := { x := fun _ _ => 0, u := fun _ _ => a, dx := fun _ _ => 0 }

/-- The input deviates by `a`. -/
def push {N : ℕ} (a : ℝ) : QVar N 1 1 → ℝ
  | .x _ _ => 0
  | .u _ _ => a

theorem square_deriv (p d : Arg 1 1 → ℝ) : fderiv ℝ (fun p : Arg 1 1 → ℝ => p (.u 0) * p (.u 0)) p d = 2 * p (.u 0) * d (.u 0) := by
  have h : HasFDerivAt (fun p : Arg 1 1 → ℝ => p (.u 0)) (ContinuousLinearMap.proj (R := ℝ) (.u 0 : Arg 1 1)) p :=
    hasFDerivAt_apply (.u 0 : Arg 1 1) p
  have h2 : HasFDerivAt (fun p : Arg 1 1 → ℝ => p (.u 0) * p (.u 0)) _ p := h.mul h
  rw [h2.fderiv]
  simp
  ring

theorem curved_bent : BentOCP curved 2 where
  f k p q d := by
    change |fderiv ℝ (fun _ : Arg 1 1 → ℝ => (0 : ℝ)) p d - fderiv ℝ (fun _ : Arg 1 1 → ℝ => (0 : ℝ)) q d| ≤ _
    simp
    positivity
  cr k p q d := by
    change |fderiv ℝ (fun p : Arg 1 1 → ℝ => p (.u 0) * p (.u 0)) p d - fderiv ℝ (fun p : Arg 1 1 → ℝ => p (.u 0) * p (.u 0)) q d| ≤ _
    rw [square_deriv, square_deriv, show 2 * p (.u 0) * d (.u 0) - 2 * q (.u 0) * d (.u 0) = 2 * (p - q) (.u 0) * d (.u 0) by simp; ring, abs_mul, abs_mul, abs_two]
    have h1 : |(p - q) (.u 0)| ≤ ‖p - q‖ := norm_le_pi_norm (p - q) (.u 0)
    have h2 : |d (.u 0)| ≤ ‖d‖ := norm_le_pi_norm d (.u 0)
    gcongr
  ce k p q d := by
    change |fderiv ℝ (fun _ : EArg 1 1 → ℝ => (0 : ℝ)) p d - fderiv ℝ (fun _ : EArg 1 1 → ℝ => (0 : ℝ)) q d| ≤ _
    simp
    positivity

/-- The linearised problem at the input `a`. -/
theorem curved_lin (env : Mesh.Env ℝ) (m : Mesh ℝ) (tf a c : ℝ) {τ : ℝ} (hτ : 0 ≤ τ) (h : a * a + 2 * a * c ≤ τ) :
    NearLin env m curved none tf (rest a) τ (push c) := by
  refine ⟨fun i k => ?_, fun i k => ⟨trivial, ?_⟩, fun k => ?_⟩
  · have e1 : (fun j => if h : j < nColloc m + 1 then (push c : QVar (nColloc m) 1 1 → ℝ) (.x ⟨j, h⟩ k) else 0) = fun _ => 0 := by
      funext j
      split_ifs <;> rfl
    have e2 : taylor1 (fun p => curved.f.val p k) (linPt (rest a) (tf * tauAt env m i)) (dev (push c) i) = 0 := by
      change taylor1 (fun _ : Arg 1 1 → ℝ => (0 : ℝ)) _ _ = 0
      simp [taylor1]
    rw [e1, slope_zero, e2]
    simpa [rest, adTerm] using hτ
  · change taylor1 (fun p : Arg 1 1 → ℝ => p (.u 0) * p (.u 0)) _ _ - τ ≤ 0
    unfold taylor1
    rw [square_deriv]
    change a * a + 2 * a * c - τ ≤ 0
    linarith
  · have e : taylor1 (fun p => curved.ce.val p k) (linEnd (rest a) tf) (devEnd (push c : QVar (nColloc m) 1 1 → ℝ)) = 0 := by
      change taylor1 (fun _ : EArg 1 1 → ℝ => (0 : ℝ)) _ _ = 0
      simp [taylor1]
    rw [e]
    exact ⟨show (0 : ℝ) ≤ 0 + τ by linarith, show (0 : ℝ) - τ ≤ 0 by linarith⟩

theorem push_norm {N : ℕ} (hN : 0 < N) (c : ℝ) : ‖(push c : QVar N 1 1 → ℝ)‖ = |c| := by
  refine le_antisymm ((pi_norm_le_iff_of_nonneg (abs_nonneg c)).2 fun v => ?_) (norm_le_pi_norm (push c : QVar N 1 1 → ℝ) (.u ⟨0, hN⟩ 0))
  cases v with
  | x i k => simp [push]
  | u i k => exact le_rfl

/-- **C139, the remainder is attained.** On every mesh, for every size `c` of the deviation: it meets the linearised problem exactly, and the true constraint only up to `L/2 |z|²`. -/
theorem ocp_qp_curvature_sharp (env : Mesh.Env ℝ) (m : Mesh ℝ) (hm : m ≠ []) (hK : ∀ v ∈ m, 1 ≤ v.K) (tf c : ℝ) :
    IsDrOCP curved ∧ BentOCP curved 2 ∧ ∃ z : QVar (nColloc m) 1 1 → ℝ, ‖z‖ = |c| ∧ NearLin env m curved none tf (rest 0) 0 z ∧
      ∀ ε a r, Near curved env m ε a (fun _ => r) (nlpPoint env m curved (rest 0) tf z) → 2 / 2 * ‖z‖ ^ 2 ≤ r := by
  have hN := nColloc_pos hm hK
  refine ⟨curved_dr, curved_bent, push c, push_norm hN c, curved_lin env m tf 0 c le_rfl (by simp), fun ε a r h => ?_⟩
  have := (h.running ⟨0, hN⟩ 0).2
  change (0 + c) * (0 + c) - r ≤ 0 at this
  rw [push_norm hN, sq_abs]
  nlinarith

/-- Parameters without polishing and with infeasibility tests off. -/
noncomputable def plain : Params ℝ := { Params.default with polish := false, epsPrimalInf := 0, epsDualInf := 0 }

/-- The hypotheses of `ocp_qp_optimal_near` can be met: linearised at the input one, where the constraint does not hold, the solver returns Optimal for every warm start, and its answer is a step
that reduces the constraint. -/
theorem curved_solved : ∃ qp, ocpToQp (lowEnv ℝ) exMesh curved none 1 (rest 1) = some qp ∧ ∀ ws, ∃ N, ∀ fuel, N ≤ fuel →
    ∃ sol, solveQP (realEnv (numV (nColloc exMesh) 1 1)) plain (pbmOf qp (numV (nColloc exMesh) 1 1) (numC (nColloc exMesh) 1 1 1)) ws fuel = .ok sol ∧
      sol.code = .optimal := by
  obtain ⟨qp, e, hB⟩ := ocpToQp_built (lowEnv ℝ) exMesh exMesh_ne exMesh_K curved curved_dr none (by intro a h; cases h) 1 (rest 1)
  refine ⟨qp, e, fun ws => ?_⟩
  have hth : ∀ a (p : EArg 1 1 → ℝ), pd (fun e => curved.theta.val e 0) a p = 0 := fun a p => by
    change pd (fun _ => (0 : ℝ)) a p = 0
    simp [pd]
  have hth2 : ∀ a b (p : EArg 1 1 → ℝ), pd (pd (fun e => curved.theta.val e 0) a) b p = 0 := fun a b p => by
    have : pd (fun e => curved.theta.val e 0) a = fun _ => (0 : ℝ) := funext fun p => hth a p
    rw [this]
    simp [pd]
  set p := pbmOf qp (numV (nColloc exMesh) 1 1) (numC (nColloc exMesh) 1 1 1) with hp
  have hP : p.P = 0 := by
    ext i j
    obtain ⟨v, hv⟩ := QVar.pos_surj i.2
    obtain ⟨w, hw⟩ := QVar.pos_surj j.2
    change qp.P.val i j = 0
    rw [← hv, ← hw, hB.P]
    simp only [hth, hth2]
    cases v <;> cases w <;> simp [pullQQ, pullQ]
  have hq : p.q = 0 := by
    ext i
    obtain ⟨v, hv⟩ := QVar.pos_surj i.2
    change qp.q.val i = 0
    rw [← hv, hB.q]
    simp only [hth]
    cases v <;> simp [pullQ]
  obtain ⟨x, hx, -⟩ := (qp_layout (nColloc exMesh) 1 1 1 1).1 (push (-1 / 2))
  have hF : Feasible p x := by
    intro c
    obtain ⟨c', hc⟩ := QCon.pos_surj c.2
    have h := (built_near hB (push (-1 / 2)) 0).2 (curved_lin (lowEnv ℝ) exMesh 1 1 (-1 / 2) le_rfl (by norm_num)) c'
    have hr : (p.A *ᵥ x) c = ∑ v : QVar (nColloc exMesh) 1 1, qp.A.val c v.pos * push (-1 / 2) v := row_sum qp hx c
    rw [hc, add_zero, sub_zero] at h
    rw [hr]
    exact h
  have hN : 0 < nColloc exMesh := nColloc_pos exMesh_ne exMesh_K
  have hd : (QCon.dyn (nx := 1) (ncr := 1) (nce := 1) (⟨0, hN⟩ : Fin (nColloc exMesh)) (0 : Fin 1)).pos < numC (nColloc exMesh) 1 1 1 := QCon.pos_lt _
  refine qp_terminates_optimal (realEnv_sqrt _) (realEnv_ldlt _) ?_ (by norm_num [plain, Params.default]) (by norm_num [plain, Params.default])
    (by norm_num [plain, Params.default]) (by norm_num [plain, Params.default]) (by norm_num [plain, Params.default]) (by norm_num [plain, Params.default])
    (by norm_num [plain, Params.default]) (fun _ => ⟨by simp [numV, exMesh_N], by simp [numC, exMesh_N]⟩) (realEnv_finds _ _ (by norm_num [plain, Params.default]) (by norm_num [plain, Params.default]) _ p ?_)
    (x := x) (y := 0) ⟨hF, ?_, ?_⟩ rfl rfl rfl rfl (i := ⟨_, hd⟩) (hB.dynl ⟨0, hN⟩ 0) (hB.dynu ⟨0, hN⟩ 0)
  · rw [hP]; exact ⟨Matrix.isSymm_zero, fun x => by simp⟩
  · rw [hP]; exact ⟨Matrix.isSymm_zero, fun x => by simp⟩
  · rw [hP, hq]; simp
  · intro i; simp

/-- All together: every Optimal answer holds a step that reduces the input, up to the tolerance, and after which the square of the input is at most the tolerance and the square of the step. -/
example : ∃ qp, ocpToQp (lowEnv ℝ) exMesh curved none 1 (rest 1) = some qp ∧ ∀ ws, ∃ N, ∀ fuel, N ≤ fuel →
    ∃ sol, solveQP (realEnv (numV (nColloc exMesh) 1 1)) plain (pbmOf qp (numV (nColloc exMesh) 1 1) (numC (nColloc exMesh) 1 1 1)) ws fuel = .ok sol ∧
      ∃ (z : QVar (nColloc exMesh) 1 1 → ℝ) (rp : ℝ), IsPrimal z sol.primal ∧ ∀ i : Fin (nColloc exMesh),
        1 + 2 * z (.u i 0) ≤ rp ∧ (1 + z (.u i 0)) ^ 2 ≤ rp + ‖z‖ ^ 2 := by
  obtain ⟨qp, e, h⟩ := curved_solved
  obtain ⟨qp', e', h'⟩ := ocp_qp_optimal_near (lowEnv ℝ) le_rfl exMesh exMesh_valid (fun K a b => lowEnv_lgr K a b) curved curved_dr 1 (rest 1) none
    (by intro a h; cases h) (realEnv (numV (nColloc exMesh) 1 1)) plain (realEnv_sqrt _) (by norm_num [plain, Params.default]) rfl
    (by norm_num [plain, Params.default]) (by norm_num [plain, Params.default])
  obtain rfl : qp' = qp := Option.some.inj (e'.symm.trans e)
  refine ⟨qp', e, fun ws => ?_⟩
  obtain ⟨N, hN⟩ := h ws
  refine ⟨N, fun fuel hf => ?_⟩
  obtain ⟨sol, hs, hc⟩ := hN fuel hf
  obtain ⟨z, ζ, rp, hz, -, -, hlin, htrue⟩ := h' ws fuel sol hs hc
  refine ⟨sol, hs, z, rp, hz, fun i => ⟨?_, ?_⟩⟩
  · have := (hlin.running i 0).2
    change taylor1 (fun p : Arg 1 1 → ℝ => p (.u 0) * p (.u 0)) _ _ - rp ≤ 0 at this
    unfold taylor1 at this
    rw [square_deriv] at this
    change 1 * 1 + 2 * 1 * z (.u i 0) - rp ≤ 0 at this
    linarith
  · have hm : OnMesh (lowEnv ℝ) exMesh (rest 1) 1 := fun i k => by
      have e1 : (fun j => if j < nColloc exMesh + 1 then (rest 1).x (1 * tauAt (lowEnv ℝ) exMesh j) k else 0) = fun _ => (0 : ℝ) := by
        funext j
        split_ifs <;> rfl
      rw [e1, slope_zero]
      simp [rest]
    have := ((htrue 2 (by norm_num) curved_bent (fun k e c => rfl) zero_le_one hm rfl).running i 0).2
    change (1 + z (.u i 0)) * (1 + z (.u i 0)) - (rp + max 1 1 * (2 / 2 * ‖z‖ ^ 2)) ≤ 0 at this
    rw [max_self] at this
    nlinarith

end Verif.OQP
