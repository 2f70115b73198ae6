import Verif.Props.MPCAlways
import Verif.Props.MPCSolverExamples

/-! # Concrete histories (C110) -/

set_option linter.unusedSectionVars false

namespace Verif.MPC

open Verif.Mesh Verif.Sparse Verif.MeshFn Verif.NLP Verif.OQP Verif.QPSpec Verif.Lie Verif.Flatten
open Verif.QP (Ext Status UpperOnly)

theorem real_solves : Solves QP.realEnv QP.Params.default where
  upper := realEnv_upper
  sqrt := QP.realEnv_sqrt
  ldlt := QP.realEnv_ldlt
  finds := fun n m p hP s hs => QP.realEnv_finds n _ (by norm_num [QP.Params.default]) (by norm_num [QP.Params.default]) m p hP s hs
  alpha := by norm_num [QP.Params.default]
  sigma := by norm_num [QP.Params.default]
  rho := by norm_num [QP.Params.default]
  epsAbs := by norm_num [QP.Params.default]
  epsRel := by norm_num [QP.Params.default]
  epsPrimalInf := by norm_num [QP.Params.default]
  epsDualInf := by norm_num [QP.Params.default]
  check := by norm_num [QP.Params.default]

/-- `x' = u` over one time unit with bounds `2 ≤ u ≤ 1` that nothing satisfies. -/
noncomputable def badArgs : Args ℝ ℝ (Fin 1 → ℝ) (Fin 1 → ℝ) 1 1 1 := { exArgs false with crl := fun _ => .fin 2 }

/-- `mpc_always_returns` with the default parameters: two controllers, one of them with bounds that exclude each other, and a copy; the times and states of the
calls and the desired trajectory are arbitrary. -/
example (t0 t1 t2 t3 : ℝ) (x0 x1 x2 x3 : Fin 1 → ℝ) (xd dxd : ℝ → Fin 1 → ℝ) :
    ∃ (N : ℕ) (r0 r1 r2 r3 : Out (Fin 1 → ℝ) (Fin 1 → ℝ)), (∀ fuel, N ≤ fuel → outs (exSys.withSolver (qpObject QP.realEnv QP.Params.default fuel))
      [.new (exArgs false), .call 0 t0 x0, .copy 0, .setX 1 xd dxd, .call 1 t1 x1, .new badArgs, .call 2 t2 x2, .call 0 t3 x3] World.empty =
      [some none, some (some r0), some none, some none, some (some r1), some none, some (some r2), some (some r3)]) ∧
      ∀ r ∈ [r0, r1, r2, r3], Verdict r.code := by
  have hm : Makeable exSys.env (exArgs false) := ⟨le_rfl, le_rfl, by norm_num [exArgs], fun K a b => lowEnv_lgr K a b⟩
  have hm' : Makeable exSys.env badArgs := ⟨le_rfl, le_rfl, by norm_num [exArgs, badArgs], fun K a b => lowEnv_lgr K a b⟩
  obtain ⟨N, os, h1, h2, h3⟩ := mpc_always_returns real_solves (fun _ => le_rfl) exSys
    [.new (exArgs false), .call 0 t0 x0, .copy 0, .setX 1 xd dxd, .call 1 t1 x1, .new badArgs, .call 2 t2 x2, .call 0 t3 x3]
    ⟨hm, by norm_num, by norm_num, by norm_num, by norm_num, hm', by norm_num, by norm_num, trivial⟩
  have h4 := h3 rfl rfl
  obtain _ | ⟨a0, _ | ⟨a1, _ | ⟨a2, _ | ⟨a3, _ | ⟨a4, _ | ⟨a5, _ | ⟨a6, _ | ⟨a7, _ | ⟨a8, os⟩⟩⟩⟩⟩⟩⟩⟩⟩ := os <;>
    simp only [List.map_cons, List.map_nil, Op.isCall, List.cons.injEq, and_true, reduceCtorEq, and_false] at h2
  obtain ⟨b0, b1, b2, b3, b4, b5, b6, b7⟩ := h2
  obtain ⟨r0, rfl⟩ := Option.isSome_iff_exists.1 b1
  obtain ⟨r1, rfl⟩ := Option.isSome_iff_exists.1 b4
  obtain ⟨r2, rfl⟩ := Option.isSome_iff_exists.1 b6
  obtain ⟨r3, rfl⟩ := Option.isSome_iff_exists.1 b7
  obtain rfl : a0 = none := by simpa using b0
  obtain rfl : a2 = none := by simpa using b2
  obtain rfl : a3 = none := by simpa using b3
  obtain rfl : a5 = none := by simpa using b5
  refine ⟨N, r0, r1, r2, r3, fun fuel hf => (h1 fuel hf).trans rfl, fun r hr => h4 r ?_⟩
  simp only [List.mem_cons, List.not_mem_nil, or_false] at hr
  rcases hr with rfl | rfl | rfl | rfl <;> simp

/-- `mpc_unique`: from every state at every time there are admissible deviations for `x' = u` with `-1 ≤ u ≤ 1`, and one is best. -/
example : ∃ w : World ℝ ℝ (QState ℝ) (Fin 1 → ℝ) (Fin 1 → ℝ) 1 1 1,
    World.run (realSys QP.Params.default 3) ([.new (exArgs false)] ++ [.setX 0 (fun t _ => t / 2) (fun _ _ => 1 / 2), .setU 0 fun _ _ => 1 / 2]) World.empty = some w ∧
    w.Follows 0 (exArgs false) (fun t _ => t / 2) (fun _ _ => 1 / 2) (fun _ _ => 1 / 2) ∧ ∀ t x,
    (∀ z, ¬ Admissible (realSys QP.Params.default 3) (exArgs false) (fun t _ => t / 2) (fun _ _ => 1 / 2) (fun _ _ => 1 / 2) t x z) ∨
    ∃! z, Admissible (realSys QP.Params.default 3) (exArgs false) (fun t _ => t / 2) (fun _ _ => 1 / 2) (fun _ _ => 1 / 2) t x z ∧
      ∀ z', Admissible (realSys QP.Params.default 3) (exArgs false) (fun t _ => t / 2) (fun _ _ => 1 / 2) (fun _ _ => 1 / 2) t x z' →
        unitCost (lowEnv ℝ) (meshOf (exArgs false)) (exArgs false).tf z ≤ unitCost (lowEnv ℝ) (meshOf (exArgs false)) (exArgs false).tf z' := by
  obtain ⟨w, hw, hF, -⟩ := real_set QP.Params.default 3
  exact ⟨w, hw, hF, fun t x => mpc_unique (realSys QP.Params.default 3) _ w hw 0 (exArgs false) (vecSys_isLie 1 1 _ _ _ _) (exF_ufn false) (exCr_ufn false)
    (fun K a b => lowEnv_lgr K a b) lowEnv_lagrange (by norm_num [exArgs]) _ _ _ hF t x⟩

/-- On the desired trajectory the second case occurs: zero deviations are admissible. -/
example (t : ℝ) : Admissible (realSys QP.Params.default 3) (exArgs false) (fun t _ => t / 2) (fun _ _ => 1 / 2) (fun _ _ => 1 / 2) t (fun _ => t / 2) fun _ => 0 := by
  have h := zero_horizon (sys := realSys QP.Params.default 3) (vecSys_isLie 1 1 _ _ _ _) (exF_ufn false) (exCr_ufn false) (real_on QP.Params.default 3 t)
  exact h

end Verif.MPC
