import Verif.Props.Collocated
import Verif.Props.FlattenExamples
import Verif.Props.OCPNLPExamples

/-! # An instance of C94 -/

namespace Verif.Flatten

open Verif.Mesh Verif.Sparse Verif.Lie Verif.MeshFn Verif.NLP Verif.QP Verif.QPSpec

open scoped Matrix Polynomial

attribute [local instance] Matrix.linftyOpNormedRing Matrix.linftyOpNormedAlgebra Matrix.linftyOpNormedSpace Matrix.linftyOpNormedAddCommGroup

/-- Final time 1, integral 1, `e(t) = (0, t, 0)` at the nodes, `v = 1`. -/
noncomputable def exSolX : Vec ℝ :=
  ⟨nVars (nColloc exMesh) 3 1 1, fun r => if r < 2 then 1 else if r < 14 then if (r - 2) % 3 = 1 then tauAt (lowEnv ℝ) exMesh ((r - 2) / 3) else 0 else 1⟩

noncomputable def exSol : NLPSol ℝ :=
  ⟨.optimal, 0, exSolX, ⟨nVars (nColloc exMesh) 3 1 1, fun _ => 0⟩, ⟨nVars (nColloc exMesh) 3 1 1, fun _ => 0⟩,
    ⟨nCons (nColloc exMesh) 3 1 1 2, fun _ => 0⟩, 1⟩

theorem exSolX_x (i : Fin (nColloc exMesh + 1)) : (fun k => held (nColloc exMesh) 3 1 1 exSolX (.x i k)) = ![0, tauAt (lowEnv ℝ) exMesh i, 0] := by
  have hN := exMesh_N
  have hi := i.2
  have key : ∀ k : Fin 3, held (nColloc exMesh) 3 1 1 exSolX (.x i k) = if (k : ℕ) = 1 then tauAt (lowEnv ℝ) exMesh i else 0 := by
    intro k
    have hk := k.2
    simp only [held, NVar.pos, exSolX]
    rw [if_neg (by omega), if_pos (by omega)]
    rw [show 1 + 1 + 3 * (i : ℕ) + k - 2 = 3 * (i : ℕ) + k by omega, show (3 * (i : ℕ) + k) % 3 = k by omega, show (3 * (i : ℕ) + k) / 3 = i by omega]
  funext k
  rw [key]
  fin_cases k <;> simp

theorem exSolX_u (i : Fin (nColloc exMesh)) : (fun k => held (nColloc exMesh) 3 1 1 exSolX (.u i k)) = ![1] := by
  have hN := exMesh_N
  funext k
  simp only [held, NVar.pos, exSolX]
  rw [if_neg (by omega), if_neg (by omega)]
  fin_cases k; rfl

theorem exSolX_feasible : Feasible (flattenOCP heis (vec ℝ 1) exG exXl exUl) (lowEnv ℝ) exMesh (held (nColloc exMesh) 3 1 1 exSolX) where
  time := by simp [held, NVar.pos, exSolX]
  dynamics i k := by
    obtain ⟨-, -, tb⟩ := tauAt_bounds (lowEnv ℝ) le_rfl exMesh exMesh_valid (fun K a b => lowEnv_lgr K a b)
    obtain ⟨p, hp, k1, -, k2⟩ := tauAt_span (lowEnv ℝ) lowEnv_search le_rfl exMesh exMesh_valid _ (tb i).1 (tb i).2.le
    have hs := slope_piece (lowEnv ℝ) lowEnv_lagrange lowEnv_search le_rfl exMesh exMesh_valid (fun K a b => lowEnv_lgr K a b)
      (fun t => ![0, t, 0]) (fun _ => ![0, Polynomial.X, 0]) (fun p hp c => by
        have : 1 ≤ p.1.K := by
          obtain ⟨j, hj⟩ := List.getElem?_of_mem hp
          exact exMesh_K _ (List.mem_of_getElem? (spans_some (v := p.1) (b := p.2) hj).1)
        fin_cases c <;> simp [this])
      (fun p _ t _ _ => by funext c; fin_cases c <;> simp) (fun i k => held (nColloc exMesh) 3 1 1 exSolX (.x i k)) (fun i => (exSolX_x i).symm)
      i k p hp k1 (k2 (tb i).2)
    rw [hs]
    have htf : held (nColloc exMesh) 3 1 1 exSolX .tf = 1 := by simp [held, NVar.pos, exSolX]
    rw [htf, one_mul, one_mul, exSolX_x, exSolX_u]
    change _ = dynVal heis (vec ℝ 1) exG.f exXl exUl (tauAt (lowEnv ℝ) exMesh i) ![0, tauAt (lowEnv ℝ) exMesh i, 0] ![1] k
    fin_cases k <;> simp [dynVal, exG, gOf, exF3, heis, heisAd, exXl, exUl, vec, pt, innerVal, Matrix.mulVec, dotProduct, Fin.sum_univ_succ]
  integrals k := by
    have htf : held (nColloc exMesh) 3 1 1 exSolX .tf = 1 := by simp [held, NVar.pos, exSolX]
    have hq : held (nColloc exMesh) 3 1 1 exSolX (.q k) = 1 := by fin_cases k; simp [held, NVar.pos, exSolX]
    have e : ∀ i : Fin (nColloc exMesh), (flattenOCP heis (vec ℝ 1) exG exXl exUl).g.val (pt (1 * tauAt (lowEnv ℝ) exMesh i)
        (fun k => held (nColloc exMesh) 3 1 1 exSolX (.x i.castSucc k)) fun k => held (nColloc exMesh) 3 1 1 exSolX (.u i k)) k = 1 := by
      intro i
      rw [exSolX_u]
      change innerVal heis (vec ℝ 1) exG.g exXl exUl _ (fun k => held (nColloc exMesh) 3 1 1 exSolX (.x i.castSucc k)) ![1] k = 1
      simp [innerVal, exG, gOf, exG1, pt, vec, exUl]
    rw [htf, hq]
    simp only [e, mul_one]
    rw [one_mul, Fin.sum_univ_eq_sum_range (fun i => wAt (lowEnv ℝ) exMesh i), exMesh_N]
    simp only [wAt, exWeights, Finset.sum_range_succ]
    norm_num
  running i k := by
    have e : (flattenOCP heis (vec ℝ 1) exG exXl exUl).cr.val (pt (held (nColloc exMesh) 3 1 1 exSolX .tf * tauAt (lowEnv ℝ) exMesh i)
        (fun k => held (nColloc exMesh) 3 1 1 exSolX (.x i.castSucc k)) fun k => held (nColloc exMesh) 3 1 1 exSolX (.u i k)) k = 1 := by
      rw [exSolX_u]
      change innerVal heis (vec ℝ 1) exG.cr exXl exUl _ (fun k => held (nColloc exMesh) 3 1 1 exSolX (.x i.castSucc k)) ![1] k = 1
      simp [innerVal, exG, gOf, exCr, pt, vec, exUl]
    rw [e]
    constructor <;> simp [flattenOCP, exG, Verif.QPSpec.lower, Verif.QPSpec.upper]
  endpoint k := by
    have h := (tauAt_bounds (lowEnv ℝ) le_rfl exMesh exMesh_valid (fun K a b => lowEnv_lgr K a b)).2.1
    have h1 : (fun k => held (nColloc exMesh) 3 1 1 exSolX (.x (Fin.last _) k)) = ![0, 1, 0] := by rw [exSolX_x, Fin.val_last, h]
    have htf : held (nColloc exMesh) 3 1 1 exSolX .tf = 1 := by simp [held, NVar.pos, exSolX]
    have e : (flattenOCP heis (vec ℝ 1) exG exXl exUl).ce.val (ends (held (nColloc exMesh) 3 1 1 exSolX)) k = 1 := by
      change endptVal heis exG.ce exXl (held (nColloc exMesh) 3 1 1 exSolX .tf) (fun k => held (nColloc exMesh) 3 1 1 exSolX (.x 0 k))
        (fun k => held (nColloc exMesh) 3 1 1 exSolX (.x (Fin.last _) k)) (fun k => held (nColloc exMesh) 3 1 1 exSolX (.q k)) k = 1
      rw [h1, htf]
      fin_cases k <;> simp [endptVal, exG, gOfE, exCe, ept, heis, exXl]
    rw [e]
    constructor <;> simp [flattenOCP, exG, Verif.QPSpec.lower, Verif.QPSpec.upper]

/-- The hypotheses of `unflatten_collocated` are met by a feasible vector of the flattened problem on the Heisenberg group, so that the
returned trajectory satisfies the original problem at the collocation points. -/
example : ∃ (o : OCPSol ℝ 3 1 1 1 2) (x : ℝ → Fin 3 → ℝ) (u : ℝ → Fin 1 → ℝ), nlpsolToOcpsol 3 1 1 1 2 (lowEnv ℝ) exMesh exSol = some o ∧
    (∀ t, (unflattenOcpsol heis (vec ℝ 1) o exXl.val exUl.val).x t = some (x t)) ∧
    (∀ t, (unflattenOcpsol heis (vec ℝ 1) o exXl.val exUl.val).u t = some (u t)) ∧
    Collocated exG heisMat heisHat (lowEnv ℝ) exMesh 1 x u (unflattenOcpsol heis (vec ℝ 1) o exXl.val exUl.val).Q := by
  have htf : exSol.x.val 0 = 1 := by simp [exSol, exSolX]
  obtain ⟨o, x, u, h1, -, -, h2, h3, -, h4, -⟩ := unflatten_collocated (LU := vec ℝ 1) heis_isLie (lowEnv ℝ) lowEnv_lagrange lowEnv_search le_rfl exMesh
    exMesh_valid (fun K a b => lowEnv_lgr K a b) exG exXl exUl exSol rfl rfl (by rw [htf]; norm_num)
    (fun t _ => (exXl_traj.vel t).mono (Set.subset_univ _)) (fun i => heis_drExp_det _)
  rw [htf] at h4
  exact ⟨o, x, u, h1, h2, h3, h4.1 exSolX_feasible⟩

end Verif.Flatten
