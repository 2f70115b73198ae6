import Verif.Props.SE2NLP
import Verif.Props.SE2QPExamples
import Verif.Props.IpoptOCP

/-! # Examples for the program ocp_se2_nlp.cpp: poses of the plane with velocities, the rules of `realEnv`, and an Ipopt that drives straight on (C129) -/

namespace Verif.SE2

open Verif.Mesh Verif.Sparse Verif.MeshFn Verif.NLP Verif.Lie Verif.Flatten Verif.QP Verif.QPSpec Verif.DI Verif.Ipopt

open scoped Matrix Matrix.Norms.Operator

theorem planePose_isOne : IsOne planePose 1 := by
  intro v
  change pvL.rplus (pvL.rplus 1 ![0, 0, 0, v 0, v 1]) ![(0 : Fin 3 → ℝ) 0, (0 : Fin 3 → ℝ) 1, (0 : Fin 3 → ℝ) 2, 0, 0] = _
  have h0 : ![(0 : Fin 3 → ℝ) 0, (0 : Fin 3 → ℝ) 1, (0 : Fin 3 → ℝ) 2, 0, 0] = 0 := by
    funext k
    fin_cases k <;> rfl
  rw [h0, pose_velocity_isLie.rplus_zero]
  rfl

/-- An Ipopt that returns at once, with the vehicle that drives straight on. -/
noncomputable def straightIpopt (m : Mesh ℝ) (_ : Option (NLPSol ℝ)) : List (CB ℝ) :=
  [.finalize .SUCCESS ⟨nVars (nColloc m) 5 2 1, fun j => straight realEnv planePose 1 m (varAt (nColloc m) 5 2 1 j)⟩ (zeros 0) (zeros 0)
    (zeros (nCons (nColloc m) 5 1 2 6)) 0 0]

/-- The whole program runs with it. -/
example (jl ju : ℕ → Ext ℝ) (junk : NLPStatus) (jx jlam : ℕ → ℝ) : ∃ out sols,
    nlpMain 1 realEnv planePose (vec ℝ 2) jl ju junk straightIpopt jx jlam = some (out, sols) ∧ sols ≠ [] ∧ ∀ s ∈ sols, s.tf = 5 := by
  obtain ⟨out, sols, h1, h2, -, h4, h5, -⟩ := se2_nlp_run (idX := 1) planePose_isPose planePose_isPlane realEnv realEnv_lagrange realEnv_search realEnv_growth
    (fun K hK _ => realEnv_lgr K (by omega)) jl ju junk straightIpopt jx jlam (fun m start hm _ => by
      refine ⟨⟨.optimal, 0, ⟨nVars (nColloc m) 5 2 1, fun j => straight realEnv planePose 1 m (varAt (nColloc m) 5 2 1 j)⟩, zeros 0, zeros 0,
        zeros (nCons (nColloc m) 5 1 2 6), 0⟩, rfl, ⟨rfl, rfl⟩, ?_⟩
      obtain ⟨f1, -, f3⟩ := straight_feasible planePose_isPose planePose_isPlane planePose_isOne realEnv_lagrange (Kmin := 5) (by norm_num) hm
        (fun K hK _ => realEnv_lgr K (by omega))
      have hh : held (nColloc m) 5 2 1 ⟨nVars (nColloc m) 5 2 1, fun j => straight realEnv planePose 1 m (varAt (nColloc m) 5 2 1 j)⟩ =
          straight realEnv planePose 1 m := by
        funext v
        exact congrArg (straight realEnv planePose 1 m) (varAt_pos v)
      change NLP.Feasible _ realEnv m (held (nColloc m) 5 2 1 ⟨nVars (nColloc m) 5 2 1, fun j => straight realEnv planePose 1 m (varAt (nColloc m) 5 2 1 j)⟩) ∧
        ∀ i : Fin (nColloc m), |held (nColloc m) 5 2 1 ⟨nVars (nColloc m) 5 2 1, fun j => straight realEnv planePose 1 m (varAt (nColloc m) 5 2 1 j)⟩ (.x i.castSucc 2)| < _
      rw [hh]
      exact ⟨f1, fun i => by rw [f3, abs_zero]; exact Real.two_pi_pos⟩)
  refine ⟨out, sols, h1, ?_, fun s hs => ?_⟩
  · intro he
    rw [he] at h4
    exact h2 (List.length_eq_zero_iff.1 h4.symm)
  · obtain ⟨k, hk⟩ := List.getElem?_of_mem hs
    have hlt : k < out.passes.length := h4 ▸ (List.getElem?_eq_some_iff.1 hk).1
    exact (h5 k _ s (List.getElem?_eq_getElem hlt) hk).2.2.1

/-- The derivatives of the dynamics at an angle of one radian, with velocities. -/
example (j : Fin 5) : HasPd (fun p => (flatSe2 1 planePose (vec ℝ 2)).f.val p j) (fun a => ((flatSe2 1 planePose (vec ℝ 2)).f.jac (pt 0 ![1, 2, 1, 1, 1 / 2] ![1, 1])).val j a.pos)
    (pt 0 ![1, 2, 1, 1, 1 / 2] ![1, 1]) :=
  (se2_flat_derivatives planePose_isPose planePose_isPlane).2.2.1 _ (by
    change |(1 : ℝ)| < _
    rw [abs_one]
    linarith [Real.pi_gt_three]) j

/-- On the default mesh the motion straight on costs at least five. -/
example : 5 ≤ expense planePose realEnv [⟨5, 0⟩] (straightX planePose 1) (fun _ => 0) := by
  have hm : Valid 5 10 ([⟨5, 0⟩] : Mesh ℝ) := valid_single 5 10 (by norm_num)
  obtain ⟨f1, f2, -⟩ := straight_feasible planePose_isPose planePose_isPlane planePose_isOne realEnv_lagrange (Kmin := 5) (by norm_num) hm
    (fun K hK _ => realEnv_lgr K (by omega))
  rw [← f2]
  exact ((se2_nlp_cost planePose_isPose planePose_isPlane planePose_isOne realEnv_lagrange (Kmin := 5) (by norm_num) hm
    (fun K hK _ => realEnv_lgr K (by omega))).1 _ f1).2

end Verif.SE2
