import Verif.Props.MPCOnDesired
import Verif.Props.MPCExamples

/-! # Concrete controllers with the modelled QP solver (C88, C89, C90) -/

set_option linter.unusedSectionVars false

namespace Verif.MPC

open Verif.Mesh Verif.Sparse Verif.MeshFn Verif.NLP Verif.OQP Verif.QPSpec Verif.Lie Verif.Flatten
open Verif.QP (Ext Status UpperOnly)
open scoped Matrix

theorem realEnv_upper (n : ℕ) : UpperOnly (QP.realEnv n) := by
  intro k H H' h
  simp only [QP.realEnv]
  rw [h]

/-- The controller of `exSys` with the modelled solver. -/
noncomputable def realSys (prm : QP.Params ℝ) (fuel : ℕ) : Sys ℝ ℝ (QState ℝ) (Fin 1 → ℝ) (Fin 1 → ℝ) 1 1 :=
  vecSys 1 1 (lowEnv ℝ) (fun t s => t + s) 0 (qpObject QP.realEnv prm fuel)

theorem real_new (prm : QP.Params ℝ) (fuel : ℕ) (b : Bool := false) : ∃ w : World ℝ ℝ (QState ℝ) (Fin 1 → ℝ) (Fin 1 → ℝ) 1 1 1,
    World.run (realSys prm fuel) [.new (exArgs b)] World.empty = some w ∧ w.objs.length = 1 := by
  have hn := (new_sim (sys := realSys prm fuel) (env := QP.realEnv) (prm := prm) (fuel := fuel) rfl (exArgs b) 0 0).1
  obtain ⟨o, ho⟩ := new_def ((realSys prm fuel).withSolver (qpFresh QP.realEnv prm fuel)) (exArgs b) le_rfl le_rfl (fun qp s => by simp [Sys.withSolver, qpFresh]) 0 0
  rw [hn] at ho
  obtain ⟨o', ho', -⟩ := Option.map_eq_some_iff.mp ho
  refine ⟨⟨[newX (realSys prm fuel)], [newU (realSys prm fuel)], [o']⟩, ?_, rfl⟩
  simp only [World.run, World.step, World.empty, List.length_nil]
  rw [ho']
  rfl

/-- `mpc_returns`: with a limit of five iterations, from any state at any time. -/
example : ∃ w : World ℝ ℝ (QState ℝ) (Fin 1 → ℝ) (Fin 1 → ℝ) 1 1 1,
    World.run (realSys { QP.Params.default with maxIter := some 5 } 6) [.new (exArgs false)] World.empty = some w ∧
    ∀ t x, ∃ w' r, w.step (realSys { QP.Params.default with maxIter := some 5 } 6) (.call 0 t x) = some (w', some r) := by
  obtain ⟨w, hw, hl⟩ := real_new { QP.Params.default with maxIter := some 5 } 6
  exact ⟨w, hw, fun t x => mpc_returns _ rfl realEnv_upper rfl (by norm_num [QP.Params.default]) le_rfl (fun _ => le_rfl) _ w hw 0 (by omega) t x⟩

theorem real_ok (b : Bool) : SolverOk QP.realEnv { QP.Params.default with polish := b } 3 where
  upper := realEnv_upper
  sqrt := QP.realEnv_sqrt
  ldlt := QP.realEnv_ldlt
  finds := fun n m p hP s hs => QP.realEnv_finds n _ (by norm_num [QP.Params.default]) (by norm_num [QP.Params.default]) m p hP s hs
  eps := fun n => by simp [QP.realEnv]
  sigma := by norm_num [QP.Params.default]
  rho := by norm_num [QP.Params.default]
  epsAbs := by norm_num [QP.Params.default]
  epsRel := by norm_num [QP.Params.default]
  delta := by norm_num [QP.Params.default]
  check := by norm_num [QP.Params.default]
  iter := by intro e h; simp [QP.Params.default] at h
  fuel := le_rfl

/-- A controller that follows `x = t / 2` with input one half. -/
theorem real_set (prm : QP.Params ℝ) (fuel : ℕ) (b : Bool := false) : ∃ w : World ℝ ℝ (QState ℝ) (Fin 1 → ℝ) (Fin 1 → ℝ) 1 1 1,
    World.run (realSys prm fuel) ([.new (exArgs b)] ++ [.setX 0 (fun t _ => t / 2) (fun _ _ => 1 / 2), .setU 0 fun _ _ => 1 / 2]) World.empty = some w ∧
    w.Follows 0 (exArgs b) (fun t _ => t / 2) (fun _ _ => 1 / 2) (fun _ _ => 1 / 2) ∧ w.ColdAt 0 := by
  obtain ⟨w, hw, hl⟩ := real_new prm fuel b
  simp only [World.run] at hw
  obtain ⟨r, hr, hw⟩ := Option.bind_eq_some_iff.mp hw
  obtain rfl := Option.some.inj hw
  obtain ⟨o, ho, e⟩ := Option.map_eq_some_iff.mp hr
  obtain ⟨-, h2, h3, h4, h5, h6⟩ := new_ok _ _ _ _ o ho
  have hwarm : o.warm = none := by
    unfold Obj.new at ho
    split_ifs at ho
    obtain ⟨mesh, hm, h⟩ := Option.bind_eq_some_iff.mp ho
    obtain ⟨thetaH, hth, h⟩ := Option.bind_eq_some_iff.mp h
    obtain ⟨gH, hg, h⟩ := Option.bind_eq_some_iff.mp h
    simp only at h
    obtain ⟨s, es, h⟩ := Option.bind_eq_some_iff.mp h
    obtain ⟨s4, eu, h⟩ := Option.bind_eq_some_iff.mp h
    obtain ⟨st, hst, rfl⟩ := Option.map_eq_some_iff.mp h
    rfl
  have hr' : World.run (realSys prm fuel) [.new (exArgs b)] World.empty = some ⟨[newX (realSys prm fuel)], [newU (realSys prm fuel)], [o]⟩ := by
    simp only [World.run]
    rw [hr, ← e]
    rfl
  refine ⟨⟨[{ newX (realSys prm fuel) with xdes := fun t _ => t / 2, dxdes := fun _ _ => 1 / 2 }], [{ newU (realSys prm fuel) with udes := fun _ _ => 1 / 2 }], [o]⟩, ?_, ?_, ?_⟩
  · rw [run_append, hr', Option.bind_some]
    simp only [World.run, World.step]
    simp [h3, h4, World.empty]
  · refine ⟨o, { newX (realSys prm fuel) with xdes := fun t _ => t / 2, dxdes := fun _ _ => 1 / 2 }, { newU (realSys prm fuel) with udes := fun _ _ => 1 / 2 },
      rfl, h2, ?_, ?_, rfl, rfl, rfl⟩
    · rw [h3]; rfl
    · rw [h4]; rfl
  · intro s hs
    unfold World.warm at hs
    simp [hwarm] at hs

theorem real_on (prm : QP.Params ℝ) (fuel : ℕ) (t : ℝ) :
    OnDesired (realSys prm fuel) (meshOf (exArgs false)) (exArgs false) (fun t _ => t / 2) (fun _ _ => 1 / 2) (fun _ _ => 1 / 2) t (fun _ => t / 2) where
  state := by
    funext k
    simp [realSys, vecSys]
  dynamics i := by
    funext k
    simp [exArgs]
  running i k := by
    simp [Within, lower, upper, exArgs, realSys, vecSys]

/-- `mpc_on_desired` and `mpc_stays_on_desired`, with the default parameters: at the times 0, 1 and 5 the input is one half. -/
example : ∃ w : World ℝ ℝ (QState ℝ) (Fin 1 → ℝ) (Fin 1 → ℝ) 1 1 1,
    World.run (realSys { QP.Params.default with polish := true } 3)
      ([.new (exArgs false)] ++ [.setX 0 (fun t _ => t / 2) (fun _ _ => 1 / 2), .setU 0 fun _ _ => 1 / 2]) World.empty = some w ∧
    List.Forall₂ (fun (c : ℝ × (Fin 1 → ℝ)) out => ∃ r, out = some (some r) ∧ r.code = .optimal ∧ r.u = fun _ => 1 / 2)
      [(0, fun _ => 0 / 2), (1, fun _ => 1 / 2), (5, fun _ => 5 / 2)]
      (outs (realSys { QP.Params.default with polish := true } 3) ([(0, fun _ => 0 / 2), (1, fun _ => 1 / 2), (5, fun _ => 5 / 2)].map fun c => .call 0 c.1 c.2) w) := by
  obtain ⟨w, hw, hF, hc⟩ := real_set { QP.Params.default with polish := true } 3
  refine ⟨w, hw, mpc_stays_on_desired _ rfl (real_ok true) (fun _ => le_rfl) _ w hw 0 (exArgs false) (vecSys_isLie 1 1 _ _ _ _) (exF_ufn false) (exCr_ufn false)
    (fun K a b => lowEnv_lgr K a b) (by norm_num [exArgs]) _ _ _ hF hc _ ?_⟩
  intro c hc
  simp only [List.mem_cons, List.not_mem_nil, or_false] at hc
  rcases hc with rfl | rfl | rfl
  · exact real_on _ _ 0
  · exact real_on _ _ 1
  · exact real_on _ _ 5

/-- The hypotheses of `mpc_near_optimal` and `mpc_sparsity_kept`: a call that reports Optimal, polishing off. -/
example : ∃ (w w' : World ℝ ℝ (QState ℝ) (Fin 1 → ℝ) (Fin 1 → ℝ) 1 1 1) (r : Out (Fin 1 → ℝ) (Fin 1 → ℝ)),
    World.run (realSys { QP.Params.default with polish := false } 3)
      ([.new (exArgs false)] ++ [.setX 0 (fun t _ => t / 2) (fun _ _ => 1 / 2), .setU 0 fun _ _ => 1 / 2]) World.empty = some w ∧
    w.Follows 0 (exArgs false) (fun t _ => t / 2) (fun _ _ => 1 / 2) (fun _ _ => 1 / 2) ∧
    w.step (realSys { QP.Params.default with polish := false } 3) (.call 0 7 fun _ => 7 / 2) = some (w', some r) ∧ r.code = .optimal := by
  obtain ⟨w, hw, hF, hc⟩ := real_set { QP.Params.default with polish := false } 3
  obtain ⟨w', r, h1, h2, -⟩ := mpc_on_desired _ rfl (real_ok false) (fun _ => le_rfl) _ w hw 0 (exArgs false) (vecSys_isLie 1 1 _ _ _ _) (exF_ufn false) (exCr_ufn false)
    (fun K a b => lowEnv_lgr K a b) (by norm_num [exArgs]) _ _ _ hF hc 7 (fun _ => 7 / 2) (real_on _ _ 7)
  exact ⟨w, w', r, hw, hF, h1, h2⟩

end Verif.MPC
