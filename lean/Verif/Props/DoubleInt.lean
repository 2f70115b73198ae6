import Verif.Model.DoubleInt
import Verif.Props.LQSolve
import Verif.Props.MPCOnDesired

/-! # The double integrator example (C103) -/

namespace Verif.DI

open Verif.Mesh Verif.Sparse Verif.MeshFn Verif.NLP Verif.OQP Verif.QP Verif.QPSpec

theorem dyn_dr : IsDr (dyn (F := ℝ)) := by
  refine ⟨fun j => ?_, fun _ => rfl, fun _ => rfl, fun _ => rfl, fun _ => rfl, fun p j a => ?_, fun p j a b => ?_⟩
  · fin_cases j <;> simp [dyn] <;> fun_prop
  · fin_cases j <;> simp [dyn, pd_coord] <;> cases a with
    | t => simp [built, Sp.update, Sp.empty, Sp.val, Arg.pos, List.foldlM]
    | x k => fin_cases k <;> simp [built, Sp.update, Sp.empty, Sp.val, Arg.pos, List.foldlM]
    | u k => fin_cases k; simp [built, Sp.update, Sp.empty, Sp.val, Arg.pos, List.foldlM]
  · have : pd (fun p => dyn (F := ℝ).val p j) a = fun _ => pd (fun p => dyn (F := ℝ).val p j) a 0 := by
      fin_cases j <;> simp [dyn] <;> funext p <;> simp [pd_coord]
    rw [this, pd_const]
    simp [dyn, built, Sp.val, Sp.empty]

theorem cr_dr : IsDr (cr (F := ℝ)) := by
  refine ⟨fun j => ?_, fun _ => rfl, fun _ => rfl, fun _ => rfl, fun _ => rfl, fun p j a => ?_, fun p j a b => ?_⟩
  · fin_cases j <;> simp [cr] <;> fun_prop
  · fin_cases j <;> simp [cr, pd_coord] <;> cases a with
    | t => simp [built, Sp.update, Sp.empty, Sp.val, Arg.pos, List.foldlM]
    | x k => fin_cases k <;> simp [built, Sp.update, Sp.empty, Sp.val, Arg.pos, List.foldlM]
    | u k => fin_cases k; simp [built, Sp.update, Sp.empty, Sp.val, Arg.pos, List.foldlM]
  · have : pd (fun p => cr (F := ℝ).val p j) a = fun _ => pd (fun p => cr (F := ℝ).val p j) a 0 := by
      fin_cases j <;> simp [cr] <;> funext p <;> simp [pd_coord]
    rw [this, pd_const]
    simp [cr, built, Sp.val, Sp.empty]

theorem pd_sq {ι : Type*} [Fintype ι] [DecidableEq ι] (k a : ι) (p : ι → ℝ) : pd (fun p => p k * p k) a p = if k = a then 2 * p k else 0 := by
  rw [pd_mul (by fun_prop) (by fun_prop), pd_coord]
  split_ifs <;> ring

theorem integral_pd (a : Arg 2 1) : pd (fun p => integral (F := ℝ).val p 0) a =
    fun p => (if .x 0 = a then 2 * p (.x 0) else 0) + (if .x 1 = a then 2 * p (.x 1) else 0) + if .u 0 = a then 2 * p (.u 0) else 0 := by
  funext p
  simp only [integral]
  rw [pd_add (by fun_prop) (by fun_prop), pd_add (by fun_prop) (by fun_prop), pd_sq, pd_sq, pd_sq]

theorem integral_dr : IsDr (integral (F := ℝ)) := by
  refine ⟨fun j => ?_, fun _ => rfl, fun _ => rfl, fun _ => rfl, fun _ => rfl, fun p j a => ?_, fun p j a b => ?_⟩
  · simp only [integral]; fun_prop
  · fin_cases j
    simp only [Fin.zero_eta]
    rw [integral_pd]
    cases a with
    | t => simp [integral, built, Sp.update, Sp.empty, Sp.val, Arg.pos, List.foldlM]
    | x k => fin_cases k <;> simp [integral, built, Sp.update, Sp.empty, Sp.val, Arg.pos, List.foldlM]
    | u k => fin_cases k; simp [integral, built, Sp.update, Sp.empty, Sp.val, Arg.pos, List.foldlM]
  · fin_cases j
    simp only [Fin.zero_eta]
    rw [integral_pd]
    have h2 : ∀ k : Arg 2 1, pd (fun p => 2 * p k) b p = if k = b then 2 else 0 := fun k => by
      rw [pd_const_mul _ (by fun_prop), pd_coord]; split_ifs <;> norm_num
    cases a with
    | t => cases b with
      | t => simp [integral, built, Sp.update, Sp.empty, Sp.val, Arg.pos, List.foldlM, pd_const]
      | x k => fin_cases k <;> simp [integral, built, Sp.update, Sp.empty, Sp.val, Arg.pos, List.foldlM, pd_const]
      | u k => fin_cases k; simp [integral, built, Sp.update, Sp.empty, Sp.val, Arg.pos, List.foldlM, pd_const]
    | x i => fin_cases i <;> simp [h2] <;> cases b with
      | t => simp [integral, built, Sp.update, Sp.empty, Sp.val, Arg.pos, List.foldlM]
      | x k => fin_cases k <;> simp [integral, built, Sp.update, Sp.empty, Sp.val, Arg.pos, List.foldlM]
      | u k => fin_cases k; simp [integral, built, Sp.update, Sp.empty, Sp.val, Arg.pos, List.foldlM]
    | u i => fin_cases i; simp [h2]; cases b with
      | t => simp [integral, built, Sp.update, Sp.empty, Sp.val, Arg.pos, List.foldlM]
      | x k => fin_cases k <;> simp [integral, built, Sp.update, Sp.empty, Sp.val, Arg.pos, List.foldlM]
      | u k => fin_cases k; simp [integral, built, Sp.update, Sp.empty, Sp.val, Arg.pos, List.foldlM]

theorem theta_dr : IsDrE (theta (F := ℝ)) := by
  refine ⟨fun j => ?_, fun _ => rfl, fun _ => rfl, fun _ => rfl, fun _ => rfl, fun p j a => ?_, fun p j a b => ?_⟩
  · simp only [theta]; fun_prop
  · simp only [theta]
    rw [pd_coord]
    fin_cases j
    cases a with
    | tf => simp [built, Sp.update, Sp.empty, Sp.val, EArg.pos, List.foldlM]
    | x0 k => fin_cases k <;> simp [built, Sp.update, Sp.empty, Sp.val, EArg.pos, List.foldlM]
    | xf k => fin_cases k <;> simp [built, Sp.update, Sp.empty, Sp.val, EArg.pos, List.foldlM]
    | q k => fin_cases k; simp [built, Sp.update, Sp.empty, Sp.val, EArg.pos, List.foldlM]
  · simp only [theta]
    rw [pd_pd_coord]
    simp [built, Sp.val, Sp.empty]

theorem ce_dr : IsDrE (ce (F := ℝ)) := by
  refine ⟨fun j => ?_, fun _ => rfl, fun _ => rfl, fun _ => rfl, fun _ => rfl, fun p j a => ?_, fun p j a b => ?_⟩
  · fin_cases j <;> simp [ce] <;> fun_prop
  · fin_cases j <;> simp [ce, pd_coord] <;> cases a with
    | tf => simp [built, Sp.update, Sp.empty, Sp.val, EArg.pos, List.foldlM]
    | x0 k => fin_cases k <;> simp [built, Sp.update, Sp.empty, Sp.val, EArg.pos, List.foldlM]
    | xf k => fin_cases k <;> simp [built, Sp.update, Sp.empty, Sp.val, EArg.pos, List.foldlM]
    | q k => fin_cases k; simp [built, Sp.update, Sp.empty, Sp.val, EArg.pos, List.foldlM]
  · have : pd (fun p => ce (F := ℝ).val p j) a = fun _ => pd (fun p => ce (F := ℝ).val p j) a 0 := by
      fin_cases j <;> simp [ce] <;> funext p <;> simp [pd_coord]
    rw [this, pd_const]
    simp [ce, built, Sp.val, Sp.empty]

/-- The derivatives written by hand are the derivatives. -/
theorem ocpDi_dr : IsDrOCP (ocpDi (F := ℝ)) := ⟨theta_dr, dyn_dr, integral_dr, cr_dr, ce_dr⟩

theorem ocpDi_lq : IsLQ (ocpDi (F := ℝ)) 1 := by
  refine ⟨fun k p d _ s => ?_, fun k p d _ s => ?_, fun p d _ => ?_, fun k p d _ s => ?_, fun k e c => ?_, fun p d _ s => ?_, fun e c => ?_⟩
  · fin_cases k <;> simp [ocpDi, dyn]
  · fin_cases k <;> simp [ocpDi, cr]
  · refine ⟨2 * (p (.x 0) * d (.x 0) + p (.x 1) * d (.x 1) + p (.u 0) * d (.u 0)), d (.x 0) ^ 2 + d (.x 1) ^ 2 + d (.u 0) ^ 2, fun s => ?_⟩
    simp only [ocpDi, integral, Pi.add_apply, Pi.smul_apply, smul_eq_mul]
    ring
  · fin_cases k <;> simp [ocpDi, ce]
  · fin_cases k <;> simp [ocpDi, ce]
  · simp [ocpDi, theta]
  · simp [ocpDi, theta]

theorem ocpDi_convex : ConvexIn SameTime fun p => (ocpDi (F := ℝ)).g.val p 0 := by
  intro p d _
  simp only [ocpDi, integral, Pi.add_apply, Pi.sub_apply]
  nlinarith [sq_nonneg (d (.x 0)), sq_nonneg (d (.x 1)), sq_nonneg (d (.u 0))]

theorem ocpDi_separable : Separable SameTime fun p => (ocpDi (F := ℝ)).g.val p 0 := by
  intro p a b hab _ _
  have h : ∀ k : Arg 2 1, (Pi.single a 1 : Arg 2 1 → ℝ) k * (Pi.single b 1 : Arg 2 1 → ℝ) k = 0 := by
    intro k
    by_cases h1 : k = a
    · subst h1; rw [Pi.single_eq_of_ne hab]; simp
    · rw [Pi.single_eq_of_ne h1]; simp
  simp only [ocpDi, integral, Pi.add_apply]
  linear_combination 2 * h (.x 0) + 2 * h (.x 1) + 2 * h (.u 0)

theorem lin0_onMesh (env : Mesh.Env ℝ) (m : Mesh ℝ) (tf : ℝ) : OnMesh env m (lin0 (F := ℝ)) tf := by
  intro i k
  simp only [lin0, ite_self, mul_zero]
  exact MPC.slope_zero _ _ _

/-- Every feasible point ends at time 5. -/
theorem ocpDi_time {env : Mesh.Env ℝ} {m : Mesh ℝ} {w : NVar (nColloc m) 2 1 1 → ℝ} (h : NLP.Feasible (ocpDi (F := ℝ)) env m w) : w .tf = 5 := by
  have := h.endpoint 0
  simp [ocpDi, ce, lower, upper, NLP.ends] at this
  linarith

/-- **C103.** The quadratic program that `ocp_doubleintegrator_qp.cpp` solves (final time 5, linearised about zero), on any mesh: its minimisers are the
global minimisers of the nonlinear program that `ocp_doubleintegrator_nlp.cpp` gives to Ipopt on that mesh, with their cost up to a constant. -/
theorem di_qp_solves_nlp (env : Mesh.Env ℝ) {Kmin Kmax : ℕ} (hK : 1 ≤ Kmin) (m : Mesh ℝ) (hm : Valid Kmin Kmax m)
    (hL : ∀ K, Kmin ≤ K → K ≤ Kmax + 1 → IsLGR env K) :
    ∃ qp, ocpToQp env m ocpDi none 5 lin0 = some qp ∧ ∀ (z : QVar (nColloc m) 2 1 → ℝ) x, IsPrimal z x →
      cost (toPbm qp (numV (nColloc m) 2 1) (numC (nColloc m) 2 2 5)) x = objective ocpDi (nlpPoint env m ocpDi lin0 5 z) ∧
      ((Feasible (toPbm qp (numV (nColloc m) 2 1) (numC (nColloc m) 2 2 5)) x ∧
        ∀ y, Feasible (toPbm qp (numV (nColloc m) 2 1) (numC (nColloc m) 2 2 5)) y →
          cost (toPbm qp (numV (nColloc m) 2 1) (numC (nColloc m) 2 2 5)) x ≤ cost (toPbm qp (numV (nColloc m) 2 1) (numC (nColloc m) 2 2 5)) y) ↔
      (NLP.Feasible ocpDi env m (nlpPoint env m ocpDi lin0 5 z) ∧
        ∀ w, NLP.Feasible ocpDi env m w → objective ocpDi (nlpPoint env m ocpDi lin0 5 z) ≤ objective ocpDi w)) := by
  obtain ⟨qp, e, h⟩ := lq_minimiser env hK m hm hL ocpDi ocpDi_dr 1 ocpDi_lq 5 (by norm_num) lin0 (lin0_onMesh env m 5)
  obtain ⟨qp', e', h', -⟩ := lq_exact env hK m hm hL ocpDi ocpDi_dr 1 ocpDi_lq 5 (by norm_num) lin0 (lin0_onMesh env m 5)
  obtain rfl : qp' = qp := Option.some.inj (e'.symm.trans e)
  refine ⟨qp', e, fun z x hx => ⟨?_, (h z x hx).trans ⟨fun k => ⟨k.1, fun w hw => k.2 w hw (ocpDi_time hw)⟩, fun k => ⟨k.1, fun w hw _ => k.2 w hw⟩⟩⟩⟩
  rw [(h' z x hx).2]
  have : objective ocpDi (nlpPoint env m ocpDi lin0 5 0) = 0 := by
    simp [objective, ocpDi, theta, NLP.ends, nlpPoint, integralSpec, integral, trajVars, nodePt, lin0]
  rw [this, sub_zero]

end Verif.DI
