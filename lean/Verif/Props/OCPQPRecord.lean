import Verif.Model.OCPQPRecord
import Verif.Proofs.OCPNLPSample
import Verif.Props.OCPQPExamples
import Verif.Props.DoubleIntFeas

/-!
# The record that `qpsol_to_ocpsol` returns (C116)
-/

set_option linter.unusedSectionVars false

namespace Verif.OQP

open Verif.Mesh Verif.Sparse Verif.MeshFn Verif.NLP Verif.QPSpec

variable {nx nu nq ncr nce : ℕ}

/-- The conversion of a solution of the right size returns a record. -/
theorem qpsolRecord_ok (env : Mesh.Env ℝ) (m : Mesh ℝ) (primal : Vec ℝ) (hp : primal.size = numV (nColloc m) nx nu) (tf : ℝ) (lin : Lin ℝ nx nu)
    (jq jlq : Fin nq → ℝ) (jce : Fin ncr → ℝ) : ∃ o, qpsolRecord ncr nce env m primal tf lin jq jlq jce = some o := by
  unfold qpsolRecord
  simp only
  rw [if_pos ⟨by rw [hp, xvarB, xvarL, numV]; omega, by rw [hp, uvarB, xvarL, numV]⟩]
  exact ⟨_, rfl⟩

/-- What the record contains. -/
theorem qpsolRecord_fields {env : Mesh.Env ℝ} {m : Mesh ℝ} {primal : Vec ℝ} {tf : ℝ} {lin : Lin ℝ nx nu} {jq jlq : Fin nq → ℝ} {jce : Fin ncr → ℝ}
    {o : OCPSol ℝ nx nu nq nce ncr} (h : qpsolRecord ncr nce env m primal tf lin jq jlq jce = some o) :
    o.t0 = 0 ∧ o.tf = tf ∧ o.x = (qpsolToOcpsol env m primal tf lin).1 ∧ o.u = (qpsolToOcpsol env m primal tf lin).2 ∧ o.Q = jq ∧ o.lambda_q = jlq ∧
      o.lambda_ce = jce ∧ (∀ t, o.lambda_dyn t = none) ∧ ∀ t, o.lambda_cr t = none := by
  unfold qpsolRecord at h
  simp only at h
  split_ifs at h
  rw [Option.some.injEq] at h
  subst h
  exact ⟨rfl, rfl, rfl, rfl, rfl, rfl, rfl, fun _ => rfl, fun _ => rfl⟩

/-- A record whose multipliers cannot be called cannot be sampled. -/
theorem ocpsolToNlpsol_none (env : Mesh.Env ℝ) (Kmin Kmax : ℕ) (h1 : 1 ≤ Kmin) (m : Mesh ℝ) (hm : Valid Kmin Kmax m)
    (hL : ∀ K, Kmin ≤ K → K ≤ Kmax + 1 → IsLGR env K) (o : OCPSol ℝ nx nu nq ncr nce) (ho : ∀ t, o.lambda_dyn t = none) (jx jl : ℕ → ℝ) :
    ocpsolToNlpsol env m o jx jl = none := by
  obtain ⟨hnl, hN, -⟩ := nodes_complete env Kmin Kmax h1 m hm hL
  have hpos : 0 < nColloc m := by
    have hne := hm.ne_nil
    obtain ⟨v, r, rfl⟩ := List.exists_cons_of_ne_nil hne
    have := (hm.degree v (by simp)).1
    rw [hN, List.map_cons, List.sum_cons]
    omega
  obtain ⟨a, l, e⟩ := List.exists_cons_of_length_pos (l := allNodes env m) (by omega)
  have hstep : ∀ s, sampleStep (nColloc m) o (0, a) s = none := by
    intro s
    unfold sampleStep
    simp only [if_pos hpos, ho]
    split
    · rfl
    · split
      · rfl
      · split
        · rfl
        · split <;> rfl
  unfold ocpsolToNlpsol
  simp only
  rw [e, List.length_cons, List.range_succ_eq_map, List.zip_cons_cons, iter, hstep]

/-- **C116, negation.** The record cannot be handed to `ocpsol_to_nlpsol`, whatever the problem, the mesh and the solution of the quadratic
program are: either its type has the wrong sizes, or its multipliers of the dynamics are empty functions. -/
theorem qpsol_no_warm_start (env : Mesh.Env ℝ) (Kmin Kmax : ℕ) (h1 : 1 ≤ Kmin) (m : Mesh ℝ) (hm : Valid Kmin Kmax m)
    (hL : ∀ K, Kmin ≤ K → K ≤ Kmax + 1 → IsLGR env K) (primal : Vec ℝ) (tf : ℝ) (lin : Lin ℝ nx nu) (jq jlq : Fin nq → ℝ) (jce : Fin ncr → ℝ)
    (o : OCPSol ℝ nx nu nq nce ncr) (h : qpsolRecord ncr nce env m primal tf lin jq jlq jce = some o) (jx jl : ℕ → ℝ) :
    nlpsolOfAny ncr nce env m o jx jl = none := by
  obtain ⟨-, -, -, -, -, -, -, hd, -⟩ := qpsolRecord_fields h
  unfold nlpsolOfAny
  split_ifs with hs
  · obtain ⟨h3, -⟩ := hs
    subst h3
    exact ocpsolToNlpsol_none env Kmin Kmax h1 m hm hL o hd jx jl
  · rfl

/-- **C116 (partial).**  FULL CLAIM: if `qpsol` solves the program, the record has the type of solutions of the problem, and its integrals and
multipliers are those of the solution, so that it can be a starting point of the nonlinear program.  False: see `qpsol_no_warm_start` and
`qpsol_integral_unset`.  Proved: the times, the states and the inputs are right. A record of the problem's type that has them, the integral by quadrature,
and any multipliers, can be handed to `ocpsol_to_nlpsol`, which returns the point `linearisation + z` of the nonlinear program with these multipliers.
Missing: everything that has to be filled in. -/
theorem qpsol_warm_start_partial (env : Mesh.Env ℝ) (hB : IsLagrange env) (hS : IsSearch env) (Kmin Kmax : ℕ) (h1 : 1 ≤ Kmin) (m : Mesh ℝ)
    (hm : Valid Kmin Kmax m) (hL : ∀ K, Kmin ≤ K → K ≤ Kmax + 1 → IsLGR env K) (ocp : OCP ℝ nx nu 1 ncr nce) (primal : Vec ℝ)
    (hp : primal.size = numV (nColloc m) nx nu) (tf : ℝ) (htf : tf ≠ 0) (lin : Lin ℝ nx nu) (z : QVar (nColloc m) nx nu → ℝ)
    (hz : ∀ v, primal.val v.pos = z v) (jq jlq : Fin 1 → ℝ) (jce : Fin ncr → ℝ) (ld : ℝ → Fin nx → ℝ) (lc : ℝ → Fin ncr → ℝ) (lq : Fin 1 → ℝ)
    (le : Fin nce → ℝ) (jx jl : ℕ → ℝ) :
    ∃ (o : OCPSol ℝ nx nu 1 nce ncr) (sol : NLPSol ℝ), qpsolRecord ncr nce env m primal tf lin jq jlq jce = some o ∧ o.t0 = 0 ∧ o.tf = tf ∧
      ocpsolToNlpsol env m
        (⟨o.t0, o.tf, fun _ => integralSpec env m ocp.g.val 0 (trajVars env m lin tf z), o.u, o.x, lq, le, fun t => some (ld t), fun t => some (lc t)⟩ :
          OCPSol ℝ nx nu 1 ncr nce) jx jl = some sol ∧
      sol.x.size = nVars (nColloc m) nx nu 1 ∧ (∀ v : NVar (nColloc m) nx nu 1, sol.x.val v.pos = nlpPoint env m ocp lin tf z v) ∧
      sol.lambda.size = nCons (nColloc m) nx 1 ncr nce ∧
      ∀ c : NCon (nColloc m) nx 1 ncr nce, sol.lambda.val c.pos = match c with
        | .dyn i k => ld (tf * tauAt env m i) k
        | .int k => lq k
        | .cr i k => lc (tf * tauAt env m i) k
        | .ce k => le k := by
  obtain ⟨o, ho⟩ := qpsolRecord_ok (ncr := ncr) (nce := nce) env m primal hp tf lin jq jlq jce
  obtain ⟨f1, f2, f3, f4, -⟩ := qpsolRecord_fields ho
  obtain ⟨q1, q2⟩ := qpsol_nodes env hB hS Kmin Kmax h1 m hm hL primal tf htf lin z hz
  have hnode : ∀ (i : ℕ) t, (allNodes env m)[i]? = some t → 0 + t * (tf - 0) = tf * tauAt env m i := by
    intro i t ht
    rw [tauAt, List.getD_eq_getElem?_getD, ht, Option.getD_some]
    ring
  obtain ⟨sol, s1, s2, s3, s4, s5⟩ := ocpsolToNlpsol_samples env Kmin Kmax h1 m hm hL
    (⟨o.t0, o.tf, fun _ => integralSpec env m ocp.g.val 0 (trajVars env m lin tf z), o.u, o.x, lq, le, fun t => some (ld t), fun t => some (lc t)⟩ :
          OCPSol ℝ nx nu 1 ncr nce) (nlpPoint env m ocp lin tf z) (fun c => match c with
        | .dyn i k => ld (tf * tauAt env m i) k
        | .int k => lq k
        | .cr i k => lc (tf * tauAt env m i) k
        | .ce k => le k) f2.symm (fun k => rfl) (fun k => rfl) (fun k => rfl)
    (fun i t ht => by simp only [f2, f3]; rw [hnode i t ht]; exact q1 i) (fun i t ht => by simp only [f2, f4]; rw [hnode i t ht]; exact q2 i)
    (fun i t ht => by simp only [f2]; rw [hnode i t ht]) (fun i t ht => by simp only [f2]; rw [hnode i t ht]) jx jl
  exact ⟨o, sol, ho, f1, f2, s1, s2, s3, s4, s5⟩

/-- **C116, negation.** Whatever the unset integral of the record is, it is wrong for some input of the double integrator: for the one that stays at rest
or for the one that accelerates without moving (the integral does not depend on the constraints). -/
theorem qpsol_integral_unset (env : Mesh.Env ℝ) (Kmin Kmax : ℕ) (h1 : 1 ≤ Kmin) (m : Mesh ℝ) (hm : Valid Kmin Kmax m)
    (hL : ∀ K, Kmin ≤ K → K ≤ Kmax + 1 → IsLGR env K) (jq jlq : Fin 1 → ℝ) (jce : Fin 2 → ℝ) :
    ∃ (z : QVar (nColloc m) 2 1 → ℝ) (primal : Vec ℝ) (o : OCPSol ℝ 2 1 1 5 2), primal.size = numV (nColloc m) 2 1 ∧ (∀ v, primal.val v.pos = z v) ∧
      qpsolRecord 2 5 env m primal 5 DI.lin0 jq jlq jce = some o ∧ o.Q 0 ≠ integralSpec env m DI.ocpDi.g.val 0 (trajVars env m DI.lin0 5 z) := by
  have main : ∀ z : QVar (nColloc m) 2 1 → ℝ, ∃ (primal : Vec ℝ) (o : OCPSol ℝ 2 1 1 5 2), primal.size = numV (nColloc m) 2 1 ∧
      (∀ v, primal.val v.pos = z v) ∧ qpsolRecord 2 5 env m primal 5 DI.lin0 jq jlq jce = some o ∧ o.Q = jq := by
    intro z
    obtain ⟨hl1, -⟩ := qp_layout (nColloc m) 2 1 2 5
    obtain ⟨y, hy, -⟩ := hl1 z
    obtain ⟨o, ho⟩ := qpsolRecord_ok (ncr := 2) (nce := 5) env m ⟨numV (nColloc m) 2 1, fun r => if h : r < numV (nColloc m) 2 1 then y ⟨r, h⟩ else 0⟩ rfl 5 DI.lin0 jq jlq jce
    refine ⟨⟨numV (nColloc m) 2 1, fun r => if h : r < numV (nColloc m) 2 1 then y ⟨r, h⟩ else 0⟩, o, rfl, fun v => ?_, ho, (qpsolRecord_fields ho).2.2.2.2.1⟩
    have hv : v.pos < numV (nColloc m) 2 1 := v.pos_lt
    simp only [hv, dif_pos]
    exact hy v hv
  have hz : integralSpec env m DI.ocpDi.g.val 0 (trajVars env m DI.lin0 5 0) = 0 := by
    simp [integralSpec, DI.ocpDi, DI.integral, trajVars, nodePt, DI.lin0]
  have hu : (0 : ℝ) < integralSpec env m DI.ocpDi.g.val 0 (trajVars env m DI.lin0 5 fun v => match v with | .x _ _ => 0 | .u _ _ => 1) := by
    have : integralSpec env m DI.ocpDi.g.val 0 (trajVars env m DI.lin0 5 fun v => match v with | .x _ _ => 0 | .u _ _ => 1) =
        5 * ∑ i : Fin (nColloc m), wAt env m i := by
      simp [integralSpec, DI.ocpDi, DI.integral, trajVars, nodePt, DI.lin0]
    rw [this]
    obtain ⟨-, hN, -⟩ := nodes_complete env Kmin Kmax h1 m hm hL
    have hpos : 0 < nColloc m := by
      obtain ⟨v, r, rfl⟩ := List.exists_cons_of_ne_nil hm.ne_nil
      have := (hm.degree v (by simp)).1
      rw [hN, List.map_cons, List.sum_cons]
      omega
    exact mul_pos (by norm_num) (Finset.sum_pos (fun i _ => wAt_pos env hm hL i) ⟨⟨0, hpos⟩, Finset.mem_univ _⟩)
  by_cases hj : jq 0 = 0
  · obtain ⟨p, o, a, b, c, d⟩ := main fun v => match v with | .x _ _ => 0 | .u _ _ => 1
    exact ⟨_, p, o, a, b, c, by rw [d, hj]; exact hu.ne⟩
  · obtain ⟨p, o, a, b, c, d⟩ := main 0
    exact ⟨_, p, o, a, b, c, by rw [d, hz]; exact hj⟩

/-- **C116.** For the double integrator example on any mesh: if the vector minimises the program of `ocp_doubleintegrator_qp.cpp`, the completed record
gives Ipopt a global minimiser of the program of `ocp_doubleintegrator_nlp.cpp` to start from. -/
theorem di_warm_start (env : Mesh.Env ℝ) (hB : IsLagrange env) (hS : IsSearch env) (Kmin Kmax : ℕ) (h1 : 1 ≤ Kmin) (m : Mesh ℝ)
    (hm : Valid Kmin Kmax m) (hL : ∀ K, Kmin ≤ K → K ≤ Kmax + 1 → IsLGR env K) (jx jl : ℕ → ℝ) (j1 j2 : Fin 1 → ℝ) (j3 : Fin 2 → ℝ) :
    ∃ qp, ocpToQp env m DI.ocpDi none 5 DI.lin0 = some qp ∧
      ∀ (x : Fin (numV (nColloc m) 2 1) → ℝ) (primal : Vec ℝ), primal.size = numV (nColloc m) 2 1 → (∀ i : Fin (numV (nColloc m) 2 1), primal.val i = x i) →
      QPSpec.Feasible (toPbm qp (numV (nColloc m) 2 1) (numC (nColloc m) 2 2 5)) x →
      (∀ y, QPSpec.Feasible (toPbm qp (numV (nColloc m) 2 1) (numC (nColloc m) 2 2 5)) y →
        cost (toPbm qp (numV (nColloc m) 2 1) (numC (nColloc m) 2 2 5)) x ≤ cost (toPbm qp (numV (nColloc m) 2 1) (numC (nColloc m) 2 2 5)) y) →
      ∃ (o : OCPSol ℝ 2 1 1 5 2) (Q : ℝ) (sol : NLPSol ℝ) (w : NVar (nColloc m) 2 1 1 → ℝ),
        qpsolRecord 2 5 env m primal 5 DI.lin0 j1 j2 j3 = some o ∧
        ocpsolToNlpsol env m (⟨o.t0, o.tf, fun _ => Q, o.u, o.x, 0, 0, fun _ => some 0, fun _ => some 0⟩ : OCPSol ℝ 2 1 1 2 5) jx jl = some sol ∧
        (∀ v, sol.x.val v.pos = w v) ∧ NLP.Feasible DI.ocpDi env m w ∧ ∀ w', NLP.Feasible DI.ocpDi env m w' → objective DI.ocpDi w ≤ objective DI.ocpDi w' := by
  obtain ⟨qp, e, h⟩ := DI.di_qp_solves_nlp env h1 m hm hL
  refine ⟨qp, e, fun x primal hp hx hf hmin => ?_⟩
  obtain ⟨z, hz, -⟩ := (qp_layout (nColloc m) 2 1 2 5).2.1 x
  obtain ⟨-, h2⟩ := h z x hz
  obtain ⟨o, sol, e1, -, -, e2, -, e3, -⟩ := qpsol_warm_start_partial env hB hS Kmin Kmax h1 m hm hL DI.ocpDi primal hp 5 (by norm_num) DI.lin0 z
    (fun v => by rw [← hz v v.pos_lt, ← hx]) j1 j2 j3 (fun _ => 0) (fun _ => 0) 0 0 jx jl
  exact ⟨o, _, sol, _, e1, e2, e3, h2.1 ⟨hf, hmin⟩⟩

/-! ### The example mesh -/

/-- The record of a solution on a mesh of three points around `x = t`, `u = 1`, with one constraint of each kind (so that the sizes agree). -/
example (z : ℕ → ℝ) (jq jlq jce : Fin 1 → ℝ) (jx jl : ℕ → ℝ) : ∃ o, qpsolRecord 1 1 (lowEnv ℝ) exMesh ⟨numV (nColloc exMesh) 1 1, z⟩ 2 exLin jq jlq jce = some o ∧
    nlpsolOfAny 1 1 (lowEnv ℝ) exMesh o jx jl = none := by
  obtain ⟨o, ho⟩ := qpsolRecord_ok (ncr := 1) (nce := 1) (lowEnv ℝ) exMesh ⟨numV (nColloc exMesh) 1 1, z⟩ rfl 2 exLin jq jlq jce
  exact ⟨o, ho, qpsol_no_warm_start (lowEnv ℝ) 1 1 le_rfl exMesh exMesh_valid (fun K h1 h2 => lowEnv_lgr K h1 h2) _ _ _ _ _ _ o ho jx jl⟩

end Verif.OQP
