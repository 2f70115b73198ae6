import Verif.Props.Bench

/-! # The benchmarks: instances (C134) -/

namespace Verif.Bench

open Verif.QPSpec

/-- Two variables, one row: a diagonal entry that is raised to 0.05. -/
def drawA : Draw ℚ 2 1 := ⟨fun _ j => if j = 0 then 1 else 0, fun i j => if i = j then (if i = 0 then 0 else -1 / 2) else 1 / 3, fun _ => 1 / 4, fun _ => 1 / 2, fun _ => 1⟩

example : (randomQp drawA).P 0 0 = 1 / 400 ∧ (randomQp drawA).P 1 0 = 1 / 60 ∧ (randomQp drawA).P 1 1 = 13 / 36 ∧ (randomQp drawA).u 0 = .fin (3 / 4) := by decide +kernel

theorem drawA_noDust : NoDust (randomQp drawA) := by
  refine ⟨fun i j => ?_, fun i j => ?_⟩ <;> fin_cases i <;> fin_cases j <;> decide +kernel

example : ∃ x, Feasible (randomQp drawA) x := draw_feasible drawA (Or.inl fun _ => by norm_num [drawA])

/-- An empty row with negative slack. -/
def drawB : Draw ℚ 2 1 := { drawA with A := fun _ _ => 0, delta := fun _ => -1 }

example : ¬∃ x, Feasible (randomQp drawB) x := draw_infeasible drawB 0 (fun _ => rfl) (by norm_num [drawB])

/-- The same over the reals: one solution, found alike by two factorisations. -/
noncomputable def drawR : Draw ℝ 2 1 := ⟨fun _ j => if j = 0 then 1 else 0, fun i j => if i = j then 1 else 0, fun _ => 1 / 4, fun _ => 1 / 2, fun _ => 1⟩

example : ∃! x, Minimiser (randomQp drawR) x := (draw_unique drawR).1 (draw_feasible drawR (Or.inl fun _ => by norm_num [drawR]))

theorem drawR_noDust : NoDust (randomQp drawR) := by
  refine ⟨fun i j => ?_, fun i j => ?_⟩
  · fin_cases i <;> fin_cases j <;> norm_num [randomQp, drawR, chol, Matrix.mul_apply, Fin.sum_univ_two]
  · fin_cases i; fin_cases j <;> norm_num [randomQp, drawR]

example : ∃ a b, smoothWork (QP.realEnv 2) 10001 3 (.dense (randomQp drawR)) = .ok a ∧ smoothWork (QP.cramerEnv 2) 10001 7 (toSparse (randomQp drawR)) = .ok b ∧ Same a b :=
  dense_sparse (QP.realEnv_sqrt 2) (QP.realEnv_ldlt 2) (QP.cramerEnv_ldlt 2) (QP.realEnv_all 2) (QP.cramerEnv_all 2) rfl drawR drawR_noDust 10001 le_rfl 3 7

noncomputable def twoDraws : List (Draw ℝ 2 1 × ℝ × ℝ) := [(drawR, 1, 2), (drawR, 3, 4)]

example : ∃ as bs, List.Forall₂ (fun d a => smoothWork (QP.realEnv 2) 10001 d.2.1 (.dense (randomQp d.1)) = .ok a) twoDraws as ∧
    List.Forall₂ (fun d b => smoothWork (QP.cramerEnv 2) 10001 d.2.2 (toSparse (randomQp d.1)) = .ok b) twoDraws bs ∧ List.Forall₂ Same as bs :=
  bench_run (QP.realEnv_sqrt 2) (QP.realEnv_ldlt 2) (QP.cramerEnv_ldlt 2) (QP.realEnv_all 2) (QP.cramerEnv_all 2) rfl twoDraws (fun d hd => by
    simp only [twoDraws, List.mem_cons, List.not_mem_nil, or_false] at hd
    rcases hd with rfl | rfl <;> exact drawR_noDust) 10001 le_rfl

/-- Three problems: two solved by both, one only by the first. -/
def resA : List (Result ℚ 1) := [⟨.optimal, 2, 25, fun _ => 1, 0⟩, ⟨.optimal, 4, 25, fun _ => 3, 0⟩, ⟨.optimal, 5, 25, fun _ => 9, 0⟩]
def resB : List (Result ℚ 1) := [⟨.optimal, 1, 25, fun _ => 2, 0⟩, ⟨.optimal, 8, 25, fun _ => 3, 0⟩, ⟨.maxIterations, 50, 25, fun _ => 0, 0⟩]

example : (solveBatch resB).numOptimal = 2 ∧ (solveBatch resB).avgSuccess = 9 / 2 ∧ (solveBatch resB).avgFail = 50 := by decide +kernel

deriving instance DecidableEq for Tab

example : compareResults (fun v => |v 0|) (solveBatch resA) (solveBatch resB) = some ⟨2, 6, 9, 1, some (1 / 2), 2, 1, some 0, 1, 0, 0⟩ := by decide +kernel

example : ∃ t, compareResults (fun v => |v 0|) (solveBatch resA) (solveBatch resB) = some t ∧ t.optim = (bothSolved resA resB).length := by
  obtain ⟨t, h, k, -⟩ := compare_sound (nrm := fun v : Fin 1 → ℚ => |v 0|) (solveBatch resA) (solveBatch resB) rfl (fun v => abs_nonneg _)
    ⟨fun r hr => by
      have : r ∈ resA := hr
      simp only [resA, List.mem_cons, List.not_mem_nil, or_false] at this
      rcases this with rfl | rfl | rfl <;> norm_num,
    fun r hr => by
      have : r ∈ resB := hr
      simp only [resB, List.mem_cons, List.not_mem_nil, or_false] at this
      rcases this with rfl | rfl | rfl <;> norm_num⟩
  exact ⟨t, h, k⟩

example : solvedByAll resA resA resB (0, 0, 0, 0) = (2, 6, 6, 9) := by decide +kernel

end Verif.Bench
