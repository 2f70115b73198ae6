import Verif.Props.OCPQPLieTol
import Verif.Props.OCPQPTolExamples
import Verif.Proofs.Collocation

/-! # Examples for C140: a problem on the Heisenberg group, where the remainder is attained and the solver stops -/

namespace Verif.OQP

open Verif.Mesh Verif.Sparse Verif.MeshFn Verif.NLP Verif.QP Verif.QPSpec Verif.Lie Verif.Flatten
open Verif.MPC (pbmOf)
open scoped Matrix

section

attribute [local instance] Matrix.linftyOpNormedRing Matrix.linftyOpNormedAlgebra Matrix.linftyOpNormedSpace Matrix.linftyOpNormedAddCommGroup

/-- `exG` without cost. -/
noncomputable def gzero : GOCP (Fin 3 → ℝ) (Fin 1 → ℝ) ℝ 3 1 1 2 := { exG with theta := gOfE ept fun _ _ => 0 }

/-- `exG` without cost and without bounds. -/
noncomputable def gfree : GOCP (Fin 3 → ℝ) (Fin 1 → ℝ) ℝ 3 1 1 2 :=
  { gzero with crl := fun _ => .neg, cru := fun _ => .pos, cel := fun _ => .neg, ceu := fun _ => .pos }

theorem gzero_dr : IsDrGOCP heis (vec ℝ 1) gzero :=
  ⟨gOfE_isDrGE (φ := fun _ _ => 0) (fun j => by fun_prop) (heis_moveE (φ := fun _ _ => 0) fun w r s => rfl), exG_dr.f, exG_dr.g, exG_dr.cr, exG_dr.ce⟩

theorem gfree_dr : IsDrGOCP heis (vec ℝ 1) gfree := ⟨gzero_dr.theta, gzero_dr.f, gzero_dr.g, gzero_dr.cr, gzero_dr.ce⟩

/-- The velocity of the error around the first axis: `(0, u, (t + 3 x₀ / 2) u - x₁)`. -/
theorem gerr (t : ℝ) (δ : Arg 3 1 → ℝ) : errDyn heis (vec ℝ 1) exG.f exGLin t δ = ![0, δ (.u 0), (t + 3 / 2 * δ (.x 0)) * δ (.u 0) - δ (.x 1)] := by
  funext i
  fin_cases i <;> simp [errDyn, along, exG, gOf, exF3, heis, exGLin, vec, pt, Matrix.mulVec, dotProduct, Fin.sum_univ_succ]
  ring

theorem gerr_deriv (t : ℝ) (p : Arg 3 1 → ℝ) : HasFDerivAt (fun δ : Arg 3 1 → ℝ => (t + 3 / 2 * δ (.x 0)) * δ (.u 0) - δ (.x 1))
    ((t + 3 / 2 * p (.x 0)) • ContinuousLinearMap.proj (R := ℝ) (φ := fun _ : Arg 3 1 => ℝ) (.u 0) +
      p (.u 0) • ((3 / 2 : ℝ) • ContinuousLinearMap.proj (R := ℝ) (φ := fun _ : Arg 3 1 => ℝ) (.x 0)) - ContinuousLinearMap.proj (R := ℝ) (φ := fun _ : Arg 3 1 => ℝ) (.x 1)) p :=
  ((((coord_fderiv (.x 0) p).const_mul (3 / 2)).const_add t).mul (coord_fderiv (.u 0) p)).sub (coord_fderiv (.x 1) p)

theorem bent_coord {ι : Type*} [Fintype ι] (a : ι) (c : ℝ) {L : ℝ} (hL : 0 ≤ L) (r : ℝ) : BentTo (fun δ : ι → ℝ => c + δ a) L r := by
  intro δ _
  have h : ∀ p : ι → ℝ, HasFDerivAt (fun δ : ι → ℝ => c + δ a) (ContinuousLinearMap.proj (R := ℝ) (φ := fun _ : ι => ℝ) a) p :=
    fun p => (ContinuousLinearMap.proj (R := ℝ) (φ := fun _ : ι => ℝ) a).hasFDerivAt.const_add c
  refine ⟨(h δ).differentiableAt, fun d => ?_⟩
  rw [(h δ).fderiv, (h 0).fderiv, sub_self, abs_zero]
  positivity

theorem g_ends (tf : ℝ) (k : Fin 2) : (fun δ => ends heis exG.ce exGLin tf δ k) =
    fun δ : EArg 3 1 → ℝ => (![tf, 0] : Fin 2 → ℝ) k + δ (.xf (![0, 1] k)) := by
  funext δ
  fin_cases k <;> simp [ends, exG, gOfE, exCe, ept, heis, exGLin]

theorem g_along (t : ℝ) (k : Fin 1) : (fun δ => along heis (vec ℝ 1) exG.cr exGLin t δ k) = fun δ : Arg 3 1 → ℝ => 0 + δ (.u 0) := by
  funext δ
  simp [along, exG, gOf, exCr, vec, pt, exGLin]

/-- The problem bends by at most 3, at any distance. -/
theorem g_bent (env : Mesh.Env ℝ) (m : Mesh ℝ) (tf r : ℝ) : BentG heis (vec ℝ 1) env m exG tf exGLin 3 r where
  f i k := by
    have e : (fun δ => errDyn heis (vec ℝ 1) exG.f exGLin (tf * tauAt env m i) δ k) =
        fun δ => (![0, δ (.u 0), (tf * tauAt env m i + 3 / 2 * δ (.x 0)) * δ (.u 0) - δ (.x 1)] : Fin 3 → ℝ) k := by
      funext δ
      rw [gerr]
    rw [e]
    fin_cases k
    · intro δ _
      refine ⟨differentiableAt_const _, fun d => ?_⟩
      change |fderiv ℝ (fun _ : Arg 3 1 → ℝ => (0 : ℝ)) δ d - fderiv ℝ (fun _ : Arg 3 1 → ℝ => (0 : ℝ)) 0 d| ≤ _
      simp
      positivity
    · simpa using bent_coord (Arg.u (nx := 3) (0 : Fin 1)) 0 (L := 3) (by norm_num) r
    · intro δ _
      refine ⟨(gerr_deriv _ δ).differentiableAt, fun d => ?_⟩
      change |fderiv ℝ (fun δ : Arg 3 1 → ℝ => (tf * tauAt env m i + 3 / 2 * δ (.x 0)) * δ (.u 0) - δ (.x 1)) δ d -
        fderiv ℝ (fun δ : Arg 3 1 → ℝ => (tf * tauAt env m i + 3 / 2 * δ (.x 0)) * δ (.u 0) - δ (.x 1)) 0 d| ≤ _
      rw [(gerr_deriv _ δ).fderiv, (gerr_deriv _ 0).fderiv]
      have h1 : |δ (.x 0)| ≤ ‖δ‖ := norm_le_pi_norm δ (.x 0)
      have h2 : |δ (.u 0)| ≤ ‖δ‖ := norm_le_pi_norm δ (.u 0)
      have h3 : |d (.x 0)| ≤ ‖d‖ := norm_le_pi_norm d (.x 0)
      have h4 : |d (.u 0)| ≤ ‖d‖ := norm_le_pi_norm d (.u 0)
      have h5 : |δ (.x 0) * d (.u 0)| ≤ ‖δ‖ * ‖d‖ := by rw [abs_mul]; gcongr
      have h6 : |δ (.u 0) * d (.x 0)| ≤ ‖δ‖ * ‖d‖ := by rw [abs_mul]; gcongr
      simp
      rw [abs_le] at h5 h6 ⊢
      constructor <;> nlinarith
  cr i k := by
    rw [g_along]
    exact bent_coord _ _ (by norm_num) r
  ce k := by
    rw [g_ends]
    exact bent_coord _ _ (by norm_num) r

/-- The deviation `x₀ = a`, `x₁ = c t`, `x₂ = 0`, `u = c`. -/
noncomputable def glide (a c : ℝ) : QVar (nColloc exMesh) 3 1 → ℝ
  | .x i k => (![a, c * tauAt (lowEnv ℝ) exMesh i, 0] : Fin 3 → ℝ) k
  | .u _ _ => c

theorem tau_slope (i : Fin (nColloc exMesh)) :
    MeshFn.slope (lowEnv ℝ) (spans 1 exMesh) (fun j => if _h : j < nColloc exMesh + 1 then tauAt (lowEnv ℝ) exMesh j else 0) i = 1 := by
  refine (exSol_feasible.dynamics i 0).trans ?_
  simp [exSol, exOCP, drOf, pt]

theorem const_slope (a : ℝ) (i : Fin (nColloc exMesh)) :
    MeshFn.slope (lowEnv ℝ) (spans 1 exMesh) (fun j => if _h : j < nColloc exMesh + 1 then a else 0) i = 0 := by
  obtain ⟨p, -, -, -, h⟩ := slope_poly lowEnv_lagrange exMesh_valid.increasing exMesh_valid.below
    (fun v hv => ⟨exMesh_K v hv, lowEnv_lgr v.K (exMesh_K v hv) (by simp [exMesh] at hv; rcases hv with rfl | rfl <;> norm_num)⟩) (fun _ => a) (fun _ => Polynomial.C a)
    (fun _ _ => by simp) (fun _ _ _ _ _ => by simp) (fun j => if _h : j < nColloc exMesh + 1 then a else 0)
    (fun j hj => by
      rw [← nColloc_eq] at hj
      simp [Nat.lt_succ_of_le hj]) i (by rw [← nColloc_eq]; exact i.2)
  rw [h]
  simp

/-- The linearised equations of motion hold exactly. -/
theorem glide_dyn (a c : ℝ) (i : Fin (nColloc exMesh)) (k : Fin 3) :
    MeshFn.slope (lowEnv ℝ) (spans 1 exMesh) (fun j => if h : j < nColloc exMesh + 1 then glide a c (.x ⟨j, h⟩ k) else 0) i -
      1 * taylor1 (fun δ => errDyn heis (vec ℝ 1) exG.f exGLin (1 * tauAt (lowEnv ℝ) exMesh i) δ k) 0 (dev (glide a c) i) = 0 := by
  have e : (fun δ => errDyn heis (vec ℝ 1) exG.f exGLin (1 * tauAt (lowEnv ℝ) exMesh i) δ k) =
      fun δ => (![0, δ (.u 0), (1 * tauAt (lowEnv ℝ) exMesh i + 3 / 2 * δ (.x 0)) * δ (.u 0) - δ (.x 1)] : Fin 3 → ℝ) k := by
    funext δ
    rw [gerr]
  rw [e]
  fin_cases k
  · have h := const_slope a i
    change MeshFn.slope (lowEnv ℝ) (spans 1 exMesh) (fun j => if _h : j < nColloc exMesh + 1 then a else 0) i - 1 * taylor1 (fun _ : Arg 3 1 → ℝ => (0 : ℝ)) 0 _ = 0
    rw [h]
    simp [taylor1]
  · have h : (fun j => if _h : j < nColloc exMesh + 1 then c * tauAt (lowEnv ℝ) exMesh j else 0) =
        fun j => c * (if _h : j < nColloc exMesh + 1 then tauAt (lowEnv ℝ) exMesh j else 0) + 0 * (0 : ℝ) := by
      funext j
      split_ifs <;> simp
    change MeshFn.slope (lowEnv ℝ) (spans 1 exMesh) (fun j => if _h : j < nColloc exMesh + 1 then c * tauAt (lowEnv ℝ) exMesh j else 0) i -
      1 * taylor1 (fun δ : Arg 3 1 → ℝ => δ (.u 0)) 0 (dev (glide a c) i) = 0
    rw [h, slope_comb (lowEnv ℝ) _ c 0 _ (fun _ => 0), tau_slope, taylor_coord]
    simp [dev, glide]
  · have h := const_slope 0 i
    change MeshFn.slope (lowEnv ℝ) (spans 1 exMesh) (fun j => if _h : j < nColloc exMesh + 1 then (0 : ℝ) else 0) i -
      1 * taylor1 (fun δ : Arg 3 1 → ℝ => (1 * tauAt (lowEnv ℝ) exMesh i + 3 / 2 * δ (.x 0)) * δ (.u 0) - δ (.x 1)) 0 (dev (glide a c) i) = 0
    rw [h]
    unfold taylor1
    rw [(gerr_deriv _ 0).fderiv]
    simp [dev, glide]
    ring

/-- On the way to the end point. -/
theorem glide_lin : NearLinG heis (vec ℝ 1) (lowEnv ℝ) exMesh gzero 1 exGLin 0 (glide 0 1) where
  dynamics i k := by
    have := glide_dyn 0 1 i k
    exact (abs_eq_zero.2 this).le
  running i k := by
    have e : taylor1 (fun δ => along heis (vec ℝ 1) gzero.cr exGLin (1 * tauAt (lowEnv ℝ) exMesh i) δ k) 0 (dev (glide 0 1) i) = 1 := by
      change taylor1 (fun δ => along heis (vec ℝ 1) exG.cr exGLin (1 * tauAt (lowEnv ℝ) exMesh i) δ k) 0 (dev (glide 0 1) i) = 1
      rw [g_along]
      simp only [zero_add]
      rw [taylor_coord]
      simp [dev, glide]
    rw [e]
    exact ⟨show (0 : ℝ) ≤ 1 + 0 by norm_num, show (1 : ℝ) - 0 ≤ 2 by norm_num⟩
  endpoint k := by
    have hl : tauAt (lowEnv ℝ) exMesh (nColloc exMesh) = 1 := by rw [exMesh_N, tauAt, exNodes]; rfl
    have e : taylor1 (fun δ => ends heis gzero.ce exGLin 1 δ k) 0 (devEnd (glide 0 1)) = 1 := by
      change taylor1 (fun δ => ends heis exG.ce exGLin 1 δ k) 0 (devEnd (glide 0 1)) = 1
      have h : ∀ p, HasFDerivAt (fun δ : EArg 3 1 → ℝ => (![1, 0] : Fin 2 → ℝ) k + δ (.xf (![0, 1] k)))
          (ContinuousLinearMap.proj (R := ℝ) (φ := fun _ : EArg 3 1 => ℝ) (.xf (![0, 1] k))) p :=
        fun p => (ContinuousLinearMap.proj (R := ℝ) (φ := fun _ : EArg 3 1 => ℝ) (.xf (![0, 1] k))).hasFDerivAt.const_add _
      rw [g_ends]
      unfold taylor1
      rw [(h 0).fderiv]
      fin_cases k <;> simp [devEnd, glide, hl]
    rw [e]
    exact ⟨show (1 : ℝ) ≤ 1 + 0 by norm_num, show (1 : ℝ) - 0 ≤ 1 by norm_num⟩

theorem tau_unit (i : Fin (nColloc exMesh + 1)) : |tauAt (lowEnv ℝ) exMesh i| ≤ 1 := by
  obtain ⟨i, hi⟩ := i
  rw [exMesh_N] at hi
  simp only [tauAt, exNodes]
  interval_cases i <;> norm_num [List.getD]

theorem glide_norm (c : ℝ) : ‖glide c c‖ = |c| := by
  refine le_antisymm ((pi_norm_le_iff_of_nonneg (abs_nonneg c)).2 fun v => ?_) (norm_le_pi_norm (glide c c) (.u ⟨0, by rw [exMesh_N]; norm_num⟩ 0))
  cases v with
  | x i k =>
    fin_cases k
    · exact le_rfl
    · change |c * tauAt (lowEnv ℝ) exMesh i| ≤ |c|
      rw [abs_mul]
      exact mul_le_of_le_one_right (abs_nonneg c) (tau_unit i)
    · simp [glide]
  | u i k => exact le_rfl

/-- **C140, the remainder is attained** on a group that does not commute. For every size `c`: a deviation of that size meets the linearised problem exactly, and the equations of motion of the error
only up to `tf L/2 |z|²`. -/
theorem ocp_qp_curvature_sharp_lie (c : ℝ) : IsDrGOCP heis (vec ℝ 1) gfree ∧ (∀ r, BentG heis (vec ℝ 1) (lowEnv ℝ) exMesh gfree 1 exGLin 3 r) ∧
    ∃ z : QVar (nColloc exMesh) 3 1 → ℝ, ‖z‖ = |c| ∧ NearLinG heis (vec ℝ 1) (lowEnv ℝ) exMesh gfree 1 exGLin 0 z ∧
      ∀ a b, NearG heis (vec ℝ 1) (lowEnv ℝ) exMesh gfree 1 exGLin a b z → 1 * (3 / 2 * ‖z‖ ^ 2) ≤ a := by
  refine ⟨gfree_dr, fun r => ⟨(g_bent (lowEnv ℝ) exMesh 1 r).f, (g_bent (lowEnv ℝ) exMesh 1 r).cr, (g_bent (lowEnv ℝ) exMesh 1 r).ce⟩, glide c c, glide_norm c,
    ⟨fun i k => (abs_eq_zero.2 (glide_dyn c c i k)).le, fun i k => ⟨trivial, trivial⟩, fun k => ⟨trivial, trivial⟩⟩, fun a b h => ?_⟩
  have hN : 0 < nColloc exMesh := by rw [exMesh_N]; norm_num
  have h1 := h.dynamics ⟨0, hN⟩ 2
  change |MeshFn.slope (lowEnv ℝ) (spans 1 exMesh) (fun j => if _h : j < nColloc exMesh + 1 then (0 : ℝ) else 0) (⟨0, hN⟩ : Fin (nColloc exMesh)) -
    1 * errDyn heis (vec ℝ 1) exG.f exGLin _ _ 2| ≤ a at h1
  rw [const_slope 0 ⟨0, hN⟩, gerr] at h1
  rw [glide_norm, sq_abs]
  refine le_trans (le_of_eq ?_) ((neg_le_abs _).trans h1)
  simp [pt, glide]
  ring

/-- The solver stops with Optimal on the program of the problem without cost. -/
theorem gzero_solved : ∃ qp, ocpToQpG 1 0 0 (lowEnv ℝ) exMesh heis false gzero 1 exGLin = some qp ∧ ∀ ws, ∃ N, ∀ fuel, N ≤ fuel →
    ∃ sol, solveQP (realEnv (numV (nColloc exMesh) 3 1)) plain (pbmOf qp (numV (nColloc exMesh) 3 1) (numC (nColloc exMesh) 3 1 2)) ws fuel = .ok sol ∧
      sol.code = .optimal := by
  obtain ⟨qp, e, hB⟩ := ocpToQpG_built (nu := 1) 0 0 (lowEnv ℝ) exMesh exMesh_ne exMesh_K heis false gzero (IsDrGOCP.rows gzero_dr) 1 exGLin
  refine ⟨qp, e, fun ws => ?_⟩
  have h0 : ∀ a : EArg 3 1, pd (fun _ : EArg 3 1 → ℝ => (0 : ℝ)) a = fun _ => 0 := fun a => by
    funext p
    simp [pd]
  have hj : ∀ p a, ((localOCP 1 gzero exGLin.x exGLin.u 1).theta.jac p).val 0 a = 0 := fun p a => by
    simp only [localOCP, localEFn, gzero, gOfE, drE, dense, Sp.val, h0]
    split_ifs <;> rfl
  have hh : ∀ p a b, ((localOCP 1 gzero exGLin.x exGLin.u 1).theta.hess p).val a b = 0 := fun p a b => by
    simp only [localOCP, localEFn, gzero, gOfE, drE, dense, Sp.val, h0]
    split_ifs <;> rfl
  set p := pbmOf qp (numV (nColloc exMesh) 3 1) (numC (nColloc exMesh) 3 1 2) with hp
  have hP : p.P = 0 := by
    ext i j
    obtain ⟨v, hv⟩ := QVar.pos_surj i.2
    obtain ⟨w, hw⟩ := QVar.pos_surj j.2
    change qp.P.val i j = 0
    rw [← hv, ← hw, hB.P]
    simp only [hj, hh]
    cases v <;> cases w <;> simp [pullQQ, pullQ]
  have hq : p.q = 0 := by
    ext i
    obtain ⟨v, hv⟩ := QVar.pos_surj i.2
    change qp.q.val i = 0
    rw [← hv, hB.q]
    simp only [hj]
    cases v <;> simp [pullQ]
  obtain ⟨x, hx, -⟩ := (qp_layout (nColloc exMesh) 3 1 1 2).1 (glide 0 1)
  have hF : Feasible p x := by
    intro c
    obtain ⟨c', hc⟩ := QCon.pos_surj c.2
    have h := (built_near_lie heis_isLie (vec_isLie 1) gzero_dr (by simp) hB (glide 0 1) 0).2 glide_lin c'
    have hr : (p.A *ᵥ x) c = ∑ v : QVar (nColloc exMesh) 3 1, qp.A.val c v.pos * glide 0 1 v := row_sum qp hx c
    rw [hc, add_zero, sub_zero] at h
    rw [hr]
    exact h
  have hN : 0 < nColloc exMesh := nColloc_pos exMesh_ne exMesh_K
  have hd : (QCon.dyn (nx := 3) (ncr := 1) (nce := 2) (⟨0, hN⟩ : Fin (nColloc exMesh)) (0 : Fin 3)).pos < numC (nColloc exMesh) 3 1 2 := QCon.pos_lt _
  refine qp_terminates_optimal (realEnv_sqrt _) (realEnv_ldlt _) ?_ (by norm_num [plain, Params.default]) (by norm_num [plain, Params.default])
    (by norm_num [plain, Params.default]) (by norm_num [plain, Params.default]) (by norm_num [plain, Params.default]) (by norm_num [plain, Params.default])
    (by norm_num [plain, Params.default]) (fun _ => ⟨by simp [numV, exMesh_N], by simp [numC, exMesh_N]⟩) (realEnv_finds _ _ (by norm_num [plain, Params.default]) (by norm_num [plain, Params.default]) _ p ?_)
    (x := x) (y := 0) ⟨hF, ?_, ?_⟩ rfl rfl rfl rfl (i := ⟨_, hd⟩) (hB.dynl ⟨0, hN⟩ 0) (hB.dynu ⟨0, hN⟩ 0)
  · rw [hP]; exact ⟨Matrix.isSymm_zero, fun x => by simp⟩
  · rw [hP]; exact ⟨Matrix.isSymm_zero, fun x => by simp⟩
  · rw [hP, hq]; simp
  · intro i; simp

/-- All together: the answer drives the first two coordinates to one, up to the tolerance, and the third equation of motion holds up to the tolerance and the square of the deviation. -/
example : ∃ qp, ocpToQpG 1 0 0 (lowEnv ℝ) exMesh heis false gzero 1 exGLin = some qp ∧ ∀ ws, ∃ N, ∀ fuel, N ≤ fuel →
    ∃ sol, solveQP (realEnv (numV (nColloc exMesh) 3 1)) plain (pbmOf qp (numV (nColloc exMesh) 3 1) (numC (nColloc exMesh) 3 1 2)) ws fuel = .ok sol ∧
      ∃ (z : QVar (nColloc exMesh) 3 1 → ℝ) (rp : ℝ), IsPrimal z sol.primal ∧
        NearG heis (vec ℝ 1) (lowEnv ℝ) exMesh gzero 1 exGLin (rp + 1 * (3 / 2 * ‖z‖ ^ 2)) (rp + 3 / 2 * ‖z‖ ^ 2) z := by
  obtain ⟨qp, e, h⟩ := gzero_solved
  obtain ⟨qp', e', h'⟩ := ocp_qp_optimal_near_lie heis_isLie (vec_isLie 1) 0 0 (lowEnv ℝ) exMesh exMesh_ne exMesh_K false (by simp) gzero gzero_dr 1 exGLin
    (realEnv (numV (nColloc exMesh) 3 1)) plain (realEnv_sqrt _) (by norm_num [plain, Params.default]) rfl
  obtain rfl : qp' = qp := Option.some.inj (e'.symm.trans e)
  refine ⟨qp', e, fun ws => ?_⟩
  obtain ⟨N, hN⟩ := h ws
  refine ⟨N, fun fuel hf => ?_⟩
  obtain ⟨sol, hs, hc⟩ := hN fuel hf
  obtain ⟨z, ζ, rp, hz, -, -, -, htrue⟩ := h' ws fuel sol hs hc
  refine ⟨sol, hs, z, rp, hz, htrue 3 ‖z‖ (by norm_num) zero_le_one ⟨(g_bent (lowEnv ℝ) exMesh 1 _).f, (g_bent (lowEnv ℝ) exMesh 1 _).cr, (g_bent (lowEnv ℝ) exMesh 1 _).ce⟩ le_rfl fun t x y q q' k => ?_⟩
  fin_cases k <;> rfl

end

end Verif.OQP
