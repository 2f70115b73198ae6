import Verif.Props.OCPQPCost

/-! # Concrete programs, stale entries, the solution (C32, C34, C67) -/

set_option linter.unusedSectionVars false

namespace Verif.OQP

open Verif.Mesh Verif.Sparse Verif.MeshFn Verif.NLP Verif.QP Verif.QPSpec

variable {N nx nu ncr nce : ℕ}

/-! ## A concrete program -/

/-- The linearisation `x = t`, `u = 1`. -/
noncomputable def exLin : Lin ℝ 1 1 := ⟨fun t _ => t, fun _ _ => 1, fun _ _ => 1⟩

/-- The deviation `x = t`, `u = c`. -/
noncomputable def exDev (c : ℝ) : QVar (nColloc exMesh) 1 1 → ℝ
  | .x i _ => tauAt (lowEnv ℝ) exMesh i
  | .u _ _ => c

theorem taylor_coord {ι : Type*} [Fintype ι] [DecidableEq ι] (k : ι) (p d : ι → ℝ) : taylor1 (fun p => p k) p d = p k + d k := by
  unfold taylor1
  rw [fderiv_pd]
  simp [pd_coord]

theorem exDev_feasible (c : ℝ) : LinFeasible (lowEnv ℝ) exMesh exOCP none 1 exLin (exDev c) ↔ c = 1 := by
  have hdyn : ∀ (i : Fin (nColloc exMesh)) (k : Fin 1),
      MeshFn.slope (lowEnv ℝ) (spans 1 exMesh) (fun j => if h : j < nColloc exMesh + 1 then exDev c (.x ⟨j, h⟩ k) else 0) i = 1 := by
    intro i k
    refine (exSol_feasible.dynamics i k).trans ?_
    simp [exSol, exOCP, drOf, pt]
  have hf : ∀ (i : Fin (nColloc exMesh)) (k : Fin 1),
      taylor1 (fun p => exOCP.f.val p k) (linPt exLin (1 * tauAt (lowEnv ℝ) exMesh i)) (dev (exDev c) i) = 1 + c :=
    fun i k => taylor_coord _ _ _
  have hcr : ∀ (i : Fin (nColloc exMesh)) (k : Fin 1),
      taylor1 (fun p => exOCP.cr.val p k) (linPt exLin (1 * tauAt (lowEnv ℝ) exMesh i)) (dev (exDev c) i) = 1 + c :=
    fun i k => taylor_coord _ _ _
  have hce : ∀ k : Fin 1, taylor1 (fun p => exOCP.ce.val p k) (linEnd exLin 1) (devEnd (exDev c)) = 0 := by
    intro k
    refine (taylor_coord _ _ _).trans ?_
    simp only [linEnd, exLin, devEnd, exDev, Fin.val_zero, exTau0, add_zero]
  constructor
  · intro h
    have := h.dynamics ⟨0, by rw [exMesh_N]; norm_num⟩ 0
    rw [hdyn, hf] at this
    simp [exLin, adTerm] at this
    exact this.symm
  · rintro rfl
    refine ⟨fun i k => ?_, fun i k => ?_, fun k => ?_⟩
    · rw [hdyn, hf]
      simp [exLin, adTerm]
    · rw [hcr]
      exact ⟨show (-1 : ℝ) ≤ 1 + 1 by norm_num, show (1 + 1 : ℝ) ≤ 2 by norm_num⟩
    · rw [hce]
      exact ⟨le_refl (0 : ℝ), le_refl (0 : ℝ)⟩

/-- `x' = u` at `x = t`, `u = 1`: of the deviations `x = t`, `u = c`, the program admits exactly the one with `c = 1`. -/
example (c : ℝ) : ∃ qp x, ocpToQp (lowEnv ℝ) exMesh exOCP none 1 exLin = some qp ∧ IsPrimal (exDev c) x ∧
    (Feasible (toPbm qp (numV (nColloc exMesh) 1 1) (numC (nColloc exMesh) 1 1 1)) x ↔ c = 1) := by
  obtain ⟨qp, e, -, h⟩ := ocp_qp_feasible (lowEnv ℝ) exMesh exMesh_ne exMesh_K exOCP exOCP_dr none (by intro a h; cases h) 1 exLin
  obtain ⟨x, hx, -⟩ := (qp_layout (nColloc exMesh) 1 1 1 1).1 (exDev c)
  exact ⟨qp, x, e, hx, (h _ _ hx).trans (exDev_feasible c)⟩

/-- The example with the end cost `q` alone, which has no second derivatives. -/
noncomputable def qOCP : OCP ℝ 1 1 1 1 1 := { exOCP with theta := drE fun p _ => p (.q 0) }

theorem qOCP_dr : IsDrOCP qOCP :=
  ⟨drE_isDr (f := fun p _ => p (.q 0)) fun _ => by fun_prop, exOCP_dr.f, exOCP_dr.g, exOCP_dr.cr, exOCP_dr.ce⟩

/-- The hypotheses of `ocp_qp_cost_exact` can be met. -/
example : ∃ qp, ocpToQp (lowEnv ℝ) exMesh qOCP none 1 exLin = some qp ∧
    ∀ (z : QVar (nColloc exMesh) 1 1 → ℝ) x, IsPrimal z x → cost (toPbm qp (numV (nColloc exMesh) 1 1) (numC (nColloc exMesh) 1 1 1)) x =
      fderiv ℝ (trajCost (lowEnv ℝ) exMesh qOCP exLin 1) 0 z + second (trajCost (lowEnv ℝ) exMesh qOCP exLin 1) 0 z / 2 := by
  refine ocp_qp_cost_exact (lowEnv ℝ) exMesh exMesh_ne exMesh_K qOCP qOCP_dr none (fun a h => by cases h) 1 exLin 1 ?_ ?_
  · intro e c
    simp [qOCP, drE]
  · intro z
    change second (fun e : EArg 1 1 → ℝ => e (.q 0)) _ _ = 0
    unfold second
    simp only [fderiv_pd, pd_coord]
    simp [pd_const]

/-! ## C34: the same entries must be stored -/

/-- The pattern of a dense Jacobian. -/
theorem exOCP_ok (tf : ℝ) (lin : Lin ℝ 1 1) : (⟨exOCP, none, tf, lin⟩ : Args 1 1 1 1).Ok fun _ _ => True := by
  refine ⟨exOCP_dr, (fun a h => by cases h), fun k c h1 h2 => ?_⟩
  simp only [true_iff]
  simp only [exOCP, drE, dense]
  rw [if_pos ⟨k.2, by omega⟩]
  exact Option.some_ne_none _

/-- Updates in parts and as a whole, with different times and linearisations, then one more. -/
example (lin lin' : Lin ℝ 1 1) : ∃ s0 s s' qp, allocate (lowEnv ℝ) exMesh exOCP ⟨freshMV, freshMV⟩ = some s0 ∧
    runAll (lowEnv ℝ) exMesh [.all ⟨exOCP, none, 5, lin⟩, .cr ⟨exOCP, none, 3, lin'⟩, .dyn ⟨exOCP, none, 2, lin⟩] s0 = some s ∧
    update (lowEnv ℝ) exMesh exOCP none 1 exLin s = some s' ∧ ocpToQp (lowEnv ℝ) exMesh exOCP none 1 exLin = some qp ∧
    SameQP s'.1 qp (numV (nColloc exMesh) 1 1) (numC (nColloc exMesh) 1 1 1) :=
  qp_update_fresh (lowEnv ℝ) exMesh exMesh_ne exMesh_K (fun _ _ => True) exOCP exOCP_dr ⟨freshMV, freshMV⟩ (Sized.fresh rfl) (Sized.fresh rfl) _
    (by
      intro c hc
      simp only [List.mem_cons, List.not_mem_nil, or_false] at hc
      rcases hc with rfl | rfl | rfl <;> exact exOCP_ok _ _) ⟨exOCP, none, 1, exLin⟩ (exOCP_ok _ _)

/-- The end constraint `x(0)^2 / 2 = 0` with a Jacobian that stores its entry only where it is not zero. -/
noncomputable def sqFn : EFn ℝ 1 1 1 where
  val p _ := p (.x0 0) * p (.x0 0) / 2
  jac p := ⟨1, 4, false, fun i j => if i = 0 ∧ j = 1 ∧ p (.x0 0) ≠ 0 then some (p (.x0 0)) else none⟩
  hess p := (drE (nx := 1) (nq := 1) (n := 1) fun p _ => p (.x0 0) * p (.x0 0) / 2).hess p

theorem sqFn_dr : IsDrE sqFn := by
  have h := drE_isDr (nx := 1) (nq := 1) (n := 1) (f := fun p _ => p (.x0 0) * p (.x0 0) / 2) fun _ => by fun_prop
  refine ⟨h.smooth, fun _ => rfl, fun _ => rfl, h.hess_rows, h.hess_cols, fun p j a => ?_, h.hess_val⟩
  obtain rfl : j = 0 := Subsingleton.elim _ _
  have e : (fun p => sqFn.val p 0) = fun p : EArg 1 1 → ℝ => 1 / 2 * (p (.x0 0) * p (.x0 0)) := by
    funext p; simp only [sqFn]; ring
  have hd := fun y : EArg 1 1 → ℝ => differentiable_coord (EArg.x0 0 : EArg 1 1) y
  rw [e, pd_const_mul (f := fun p : EArg 1 1 → ℝ => p (.x0 0) * p (.x0 0)) _ ((hd p).mul (hd p)),
    pd_mul (f := fun p : EArg 1 1 → ℝ => p (.x0 0)) (g := fun p => p (.x0 0)) (hd p) (hd p), pd_coord]
  unfold Sp.val
  simp only [sqFn, Fin.val_zero, true_and]
  by_cases ha : a = .x0 0
  · subst ha
    by_cases h0 : p (.x0 0) = 0
    · simp [EArg.pos, h0]
    · simp [EArg.pos, h0]; ring
  · have : a.pos ≠ 1 := by
      cases a with
      | tf => simp [EArg.pos]
      | x0 k => exact absurd (congrArg EArg.x0 (Subsingleton.elim k 0)) ha
      | xf k => simp only [EArg.pos]; omega
      | q k => simp only [EArg.pos]; omega
    rw [if_neg (fun h => this h.1), if_neg (fun h => ha h.symm)]
    simp

/-- The example with that end constraint. -/
noncomputable def sqOCP : OCP ℝ 1 1 1 1 1 := { exOCP with ce := sqFn }

theorem sqOCP_dr : IsDrOCP sqOCP := { exOCP_dr with ce := sqFn_dr }

/-- **C34 needs the same entries.** If the Jacobian of the end constraints stores fewer entries than at the last update, the entries
that are no longer stored keep their old values in the program (`block_write` skips what is not stored, and
`ocp_to_qp_update_ce` does not clear its rows first, ocp_to_qp.hpp:362-366): an update at `x(0) = 1` and one at `x(0) = 0` leave
the coefficient one, a conversion from scratch gives zero. -/
theorem qp_update_stale : ∃ (lin lin' : Lin ℝ 1 1) (s0 s s' : QPD ℝ × Work ℝ) (qp : QPD ℝ), IsDrOCP sqOCP ∧
    allocate (lowEnv ℝ) exMesh sqOCP ⟨freshMV, freshMV⟩ = some s0 ∧ update (lowEnv ℝ) exMesh sqOCP none 1 lin s0 = some s ∧
    update (lowEnv ℝ) exMesh sqOCP none 1 lin' s = some s' ∧ ocpToQp (lowEnv ℝ) exMesh sqOCP none 1 lin' = some qp ∧
    s'.1.A.val 6 0 = 1 ∧ qp.A.val 6 0 = 0 := by
  have hN := nColloc_pos exMesh_ne exMesh_K
  set lin : Lin ℝ 1 1 := ⟨fun _ _ => 1, fun _ _ => 0, fun _ _ => 0⟩ with hlin
  set lin' : Lin ℝ 1 1 := ⟨fun _ _ => 0, fun _ _ => 0, fun _ _ => 0⟩ with hlin'
  have hA : IsAd (none : Option ((Fin 1 → ℝ) → Sp ℝ)) := by intro a h; cases h
  obtain ⟨s0, e0, hs0⟩ := allocate_spec (lowEnv ℝ) exMesh sqOCP sqOCP_dr.cr.jac_rows sqOCP_dr.g.jac_rows (fun k c => (sqOCP.ce.jac (linEnd lin 1)).ent k c ≠ none)
    ⟨freshMV, freshMV⟩ (Sized.fresh rfl) (Sized.fresh rfl)
  obtain ⟨s, e, hs, hb⟩ := update_spec (lowEnv ℝ) exMesh exMesh_ne hN sqOCP sqOCP_dr none hA 1 lin _ (fun _ _ _ _ => Iff.rfl) s0 hs0
  obtain ⟨qp, e', hb'⟩ := ocpToQp_built (lowEnv ℝ) exMesh exMesh_ne exMesh_K sqOCP sqOCP_dr none hA 1 lin'
  obtain ⟨P, q, int, e1, -, -, -, -, -⟩ := updateCost_spec (lowEnv ℝ) exMesh hN sqOCP sqOCP_dr.g 1 lin' s hs.P hs.q hs.int
  obtain ⟨qp2, e2, -, -, c2, -, -, -, ka2, -, -⟩ := updateDyn_spec (lowEnv ℝ) exMesh exMesh_ne sqOCP sqOCP_dr.f.jac_rows none hA 1 lin'
    ({ s.1 with P := P, q := q }, { s.2 with int := int }) ⟨hs.con.A, hs.con.l, hs.con.u⟩
  obtain ⟨qp3, cr, e3, -, -, c3, -, -, -, -, ka3, -, -⟩ := updateCr_spec (lowEnv ℝ) exMesh sqOCP sqOCP_dr.cr.jac_rows 1 lin'
    (qp2, { s.2 with int := int }) c2 (hs.cr.of_ent rfl fun r hr _ c => ka2 r hr c)
  obtain ⟨qp4, e4, -, -, -, hx0, -⟩ := updateCe_ents exMesh hN sqOCP sqOCP_dr.ce.jac_rows 1 lin' (qp3, { s.2 with int := int, cr := cr }) c3
  have hrow : 1 * nColloc exMesh + 1 * nColloc exMesh + ((0 : Fin 1) : ℕ) = 6 := by rw [exMesh_N]; rfl
  have hcol : 1 * ((0 : Fin (nColloc exMesh + 1)) : ℕ) + ((0 : Fin 1) : ℕ) = 0 := by simp
  have hval : ∀ p : EArg 1 1 → ℝ, pd (fun p => sqOCP.ce.val p 0) (.x0 0) p = p (.x0 0) := by
    intro p
    refine (sqFn_dr.jac_val p 0 (.x0 0)).symm.trans ?_
    unfold Sp.val
    by_cases h0 : p (.x0 0) = 0
    · simp [sqFn, EArg.pos, h0]
    · simp [sqFn, EArg.pos, h0]
  have hne : (0 : Fin (nColloc exMesh + 1)) ≠ Fin.last (nColloc exMesh) := by
    intro h
    have h := congrArg Fin.val h
    rw [Fin.val_zero, Fin.val_last, exMesh_N] at h
    omega
  refine ⟨lin, lin', s0, s, (qp4, { s.2 with int := int, cr := cr }), qp, sqOCP_dr, e0, e, ?_, e', ?_, ?_⟩
  · unfold update
    rw [e1, Option.bind_some, e2, Option.bind_some, e3, Option.bind_some]
    exact e4
  · have h1 := hx0 0 0
    have h2 := hb.ce 0 (.x 0 0)
    simp only [QVar.pos, pullQ, hval, if_neg hne, if_true, add_zero] at h2
    have hJ : (sqOCP.ce.jac (linEnd lin' 1)).ent ((0 : Fin 1) : ℕ) (1 + ((0 : Fin 1) : ℕ)) = none := by
      simp [sqOCP, sqFn, linEnd, hlin']
    rw [hJ] at h1
    simp only at h1
    rw [ka3 _ (Or.inr (by omega)), ka2 _ (by omega)] at h1
    rw [hrow, hcol] at h1
    rw [hrow, hcol] at h2
    have h3 : s.1.A.val 6 0 = 1 := h2
    unfold Sp.val at h3 ⊢
    rw [h1]
    exact h3
  · have h2 := hb'.ce 0 (.x 0 0)
    simp only [QVar.pos, pullQ, hval, if_neg hne, if_true, add_zero] at h2
    rw [hrow, hcol] at h2
    exact h2

/-! ## The lower triangle -/

/-- The program stores only the upper triangle of `P`: below the diagonal all its numbers are zero. Together with C10 (the solver
reads both triangles) the cost that the solver minimises is not the one of the program unless `P` is diagonal. -/
theorem ocp_qp_lower_zero (env : Mesh.Env ℝ) (m : Mesh ℝ) (hm : m ≠ []) (hK : ∀ v ∈ m, 1 ≤ v.K) (ocp : OCP ℝ nx nu 1 ncr nce) (ho : IsDrOCP ocp)
    (ad : Option ((Fin nx → ℝ) → Sp ℝ)) (hA : IsAd ad) (tf : ℝ) (lin : Lin ℝ nx nu) :
    ∃ qp, ocpToQp env m ocp ad tf lin = some qp ∧ ∀ i j, j < i → i < numV (nColloc m) nx nu → qp.P.val i j = 0 := by
  obtain ⟨qp, e, hb⟩ := ocpToQp_built env m hm hK ocp ho ad hA tf lin
  refine ⟨qp, e, fun i j hij hi => ?_⟩
  obtain ⟨v, rfl⟩ := QVar.pos_surj hi
  obtain ⟨w, rfl⟩ := QVar.pos_surj (hij.trans hi)
  rw [hb.P, if_neg (not_le.mpr hij)]

/-! ## C67 -/

/-- **C67.** On a mesh of LGR intervals, with a nonzero final time, the trajectory that `qpsol_to_ocpsol` returns takes, at the time of
every node, the value of the linearisation plus the deviation that the solution of the program holds for the node; the input
likewise at the collocation points. -/
theorem qpsol_nodes (env : Mesh.Env ℝ) (hB : IsLagrange env) (hS : IsSearch env) (Kmin Kmax : ℕ) (h1 : 1 ≤ Kmin) (m : Mesh ℝ)
    (hm : Valid Kmin Kmax m) (hL : ∀ K, Kmin ≤ K → K ≤ Kmax + 1 → IsLGR env K) (primal : Vec ℝ) (tf : ℝ) (htf : tf ≠ 0) (lin : Lin ℝ nx nu)
    (z : QVar (nColloc m) nx nu → ℝ) (hz : ∀ v, primal.val v.pos = z v) :
    (∀ i : Fin (nColloc m + 1), (qpsolToOcpsol env m primal tf lin).1 (tf * tauAt env m i) =
      some fun k => lin.x (tf * tauAt env m i) k + z (.x i k)) ∧
    (∀ i : Fin (nColloc m), (qpsolToOcpsol env m primal tf lin).2 (tf * tauAt env m i) =
      some fun k => lin.u (tf * tauAt env m i) k + z (.u i k)) := by
  obtain ⟨hnl, -⟩ := nodes_complete env Kmin Kmax h1 m hm hL
  have hnode : ∀ i, i < nColloc m + 1 → (allNodes env m)[i]? = some (tauAt env m i) := by
    intro i hi
    simp only [tauAt, List.getD_eq_getElem?_getD]
    rw [List.getElem?_eq_getElem (by rw [hnl]; exact hi)]
    rfl
  have hdiv : ∀ t : ℝ, (tf * t - 0) / (tf - 0) = t := by intro t; field_simp; ring
  constructor
  · intro i
    unfold qpsolToOcpsol
    simp only
    rw [hdiv, eval_interpolates env hB hS Kmin Kmax m hm hL _ (by rw [cols, List.length_map, List.length_range, hnl]) i _ (hnode i i.2),
      cols_get _ _ _ _ _ i.2, Option.map_some]
    congr 1
    funext k
    simp only [Pi.add_apply]
    rw [← hz (.x i k)]
    simp only [QVar.pos, xvarB, Nat.zero_add]
  · intro i
    unfold qpsolToOcpsol
    simp only
    rw [hdiv, eval_interpolates_open env hB hS Kmin Kmax h1 m hm hL _ (by simp [cols]) i i.2 _ (hnode i (by omega)),
      cols_get _ _ _ _ _ i.2, Option.map_some]
    congr 1
    funext k
    simp only [Pi.add_apply]
    rw [← hz (.u i k)]
    simp only [QVar.pos, uvarB, xvarL, Nat.add_assoc]

/-- At `tf = 2` on the example mesh, around `x = t` and `u = 1`. -/
example (primal : Vec ℝ) (z : QVar (nColloc exMesh) 1 1 → ℝ) (hz : ∀ v, primal.val v.pos = z v) (i : Fin (nColloc exMesh)) :
    (qpsolToOcpsol (lowEnv ℝ) exMesh primal 2 exLin).1 (2 * tauAt (lowEnv ℝ) exMesh i) =
        some (fun k => 2 * tauAt (lowEnv ℝ) exMesh i + z (.x i.castSucc k)) ∧
      (qpsolToOcpsol (lowEnv ℝ) exMesh primal 2 exLin).2 (2 * tauAt (lowEnv ℝ) exMesh i) = some (fun k => 1 + z (.u i k)) := by
  have h := qpsol_nodes (lowEnv ℝ) lowEnv_lagrange lowEnv_search 1 1 le_rfl exMesh exMesh_valid
    (fun K h1 h2 => lowEnv_lgr K h1 h2) primal 2 two_ne_zero exLin z hz
  exact ⟨h.1 i.castSucc, h.2 i⟩

end Verif.OQP
