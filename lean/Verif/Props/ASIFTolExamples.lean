import Verif.Props.ASIFTol
import Verif.Props.ASIFExamples
import Verif.Props.MPCErrorExamples

/-! # Concrete situations (C142) -/

set_option linter.unusedSectionVars false

namespace Verif.ASIF

open scoped Matrix
open Verif.QPSpec
open Verif.QP (Ext Status)

/-- The car in front of the wall with the desired input 2: the best input is 1, and no slack is needed. -/
theorem car_best (mu : Fin 1 → ℝ) (s : ℝ) (h : Best line car carPrm (carCall 2) carSteps mu s) : mu 0 = -1 ∧ s = 0 := by
  have hall : ∀ (m s : ℝ), Allowed line car carPrm (carCall 2) carSteps (fun _ => m) s ↔ (-3 ≤ m ∧ m ≤ -1) ∧ 2 + m ≤ 1 + s ∧ 0 ≤ s := by
    intro m s
    have e1 : InPoly (carPrm : FPrm (Fin 1 → ℝ) ℝ 1).ulim (line.uminus (carCall (2 : ℝ)).udes (carPrm : FPrm (Fin 1 → ℝ) ℝ 1).ulim.c + fun _ => m) ↔ -3 ≤ m ∧ m ≤ -1 := by
      have := car_bounds (fun _ : Fin 1 => (2 : ℝ) + m)
      unfold InBounds at this
      have e : (line.uminus (fun _ : Fin 1 => (2 : ℝ) + m) (box : Bounds (Fin 1 → ℝ) ℝ 1).c) =
          (line.uminus (carCall (2 : ℝ)).udes (carPrm : FPrm (Fin 1 → ℝ) ℝ 1).ulim.c + fun _ => m) := by
        funext i
        simp [line, box, carCall, carPrm]
      rw [e] at this
      refine this.trans ⟨fun h => ⟨by linarith [h.1], by linarith [h.2]⟩, fun h => ⟨by linarith [h.1], by linarith [h.2]⟩⟩
    have e2 := car_safe (F := ℝ) 2 (fun _ => m) s
    exact ⟨fun h => ⟨e1.1 h.bounds, e2.1 h.safe, h.nonneg⟩, fun h => ⟨e1.2 h.1, e2.2 h.2.1, h.2.2⟩⟩
  obtain ⟨m, rfl⟩ : ∃ m, mu = fun _ => m := ⟨mu 0, by funext i; rw [Subsingleton.elim i 0]⟩
  obtain ⟨h1, h2⟩ := h
  obtain ⟨⟨a1, a2⟩, a3, a4⟩ := (hall m s).1 h1
  have := h2 (fun _ => -1) 0 ((hall _ _).2 (by norm_num))
  simp [carPrm] at this
  have b1 : s = 0 := by nlinarith [sq_nonneg s]
  refine ⟨?_, b1⟩
  subst b1
  change m = -1
  nlinarith

theorem car_steep (u : ℝ) : Steep line car carPrm (carCall u) 1 := by
  intro steps hS k hk i j
  change |((wall : Barrier (Fin 1 → ℝ) ℝ 1).dx (steps k).sum (march line car halt (steps k) 0 0) * sens line car halt (steps k) 0 0 1 * (car : Dyn (Fin 1 → ℝ) (Fin 1 → ℝ) ℝ 1 1).du 0 _) i j| ≤ 1
  rw [car_march, car_sens]
  have hi : i = (0 : Fin 1) := Subsingleton.elim (α := Fin 1) _ _
  have hj : j = (0 : Fin 1) := Subsingleton.elim (α := Fin 1) _ _
  subst hi hj
  change |((-1 : Matrix (Fin 1) (Fin 1) ℝ) * (1 : Matrix (Fin 1) (Fin 1) ℝ) * (1 : Matrix (Fin 1) (Fin 1) ℝ)) 0 0| ≤ 1
  rw [Matrix.mul_one, Matrix.mul_one, Matrix.neg_apply, Matrix.one_apply_eq, abs_neg, abs_one]

/-- `asif_small_tolerances_solve`: the car in front of the wall with the desired input 2, after two other calls. The call reports Optimal, and the input tends to 1 with the tolerance. -/
theorem car_near : ∃ C e0 : ℝ, 0 < e0 ∧ ∀ e, 0 < e → e ≤ e0 → ∃ N s s' u,
    (∀ fuel, N ≤ fuel → Filter.run line (withQP (QP.realEnv 2) (MPC.tight e) fuel) fuel [carCall (1 / 2), carCall 5] (Filter.new car carPrm) = some s ∧
      s.call line (withQP (QP.realEnv 2) (MPC.tight e) fuel) fuel (carCall 2) = some (s', u, .optimal)) ∧ |u 0 - 1| ≤ C * e := by
  obtain ⟨mu, sl, C, e0, hb, hC, he0, h⟩ := asif_small_tolerances_solve line car carPrm (carCall (2 : ℝ)) carSteps (fun _ => by norm_num [carPrm]) (by norm_num [carPrm]) rfl
    carSteps_schedule ⟨0, (car_bounds 0).2 (by norm_num)⟩ (Or.inr (Or.inr (by norm_num [carPrm]))) 1 (car_steep 2)
    (fun i => ⟨i, Matrix.one_apply_eq (n := Fin 1) i, fun i' h => absurd (Subsingleton.elim (α := Fin 1) i' i) h⟩) ⟨(0 : Fin 1), -1, 1, rfl, rfl⟩
  obtain ⟨hm, -⟩ := car_best mu sl hb
  refine ⟨C, min e0 (1 / 8), lt_min he0 (by norm_num), fun e h1 h2 => ?_⟩
  have h3 : e ≤ 1 / 8 := h2.trans (min_le_right _ _)
  obtain ⟨N, s, s', mu', h4, h5, -⟩ := h QP.realEnv (MPC.tight e) [carCall (1 / 2), carCall 5] (MPC.tight_solves h1) rfl rfl (h2.trans (min_le_left _ _))
    ⟨by norm_num, fun i => by simp only [carPrm, MPC.tight]; linarith, by simp only [carPrm, MPC.tight]; linarith, by simp only [carPrm, MPC.tight]; norm_num; linarith,
      by simp only [carPrm, MPC.tight]; norm_num; linarith, rfl, rfl⟩ (by
      intro c hc
      simp only [List.mem_cons, List.not_mem_nil, or_false] at hc
      rcases hc with rfl | rfl <;> rfl)
  refine ⟨N, s, s', _, h4, ?_⟩
  have h6 := h5 0
  rw [hm] at h6
  have e1 : line.uplus (carCall (2 : ℝ)).udes mu' 0 - 1 = -(-1 - mu' 0) := by
    simp [line, carCall]
    ring
  rw [e1, abs_neg]
  exact h6

end Verif.ASIF
