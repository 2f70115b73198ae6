import Verif.Props.PIDSe2Stable
import Verif.Props.LieClassical
import Verif.Props.LieGroups

/-! # Examples for the vehicle under PID control: rigid motions of the plane (C122) -/

namespace Verif.PIDSe2

open Verif.Lie Filter Topology

open scoped Matrix

/-! ### The difference of poses by a logarithm near one -/

section

variable {𝔸 : Type*} [NormedRing 𝔸] [NormedAlgebra ℝ 𝔸] [FiniteDimensional ℝ 𝔸] [CompleteSpace 𝔸] {G : Subgroup 𝔸ˣ} {n : ℕ} {hat : (Fin n → ℝ) →ₗ[ℝ] 𝔸} {L : LieOps G ℝ n}

theorem exists_rminus (h : IsLie L (fun x : G => ((x : 𝔸ˣ) : 𝔸)) hat) : ∃ rminus : G → G → Fin n → ℝ, ∃ ρ > 0, ∀ x a, ‖a‖ < ρ → rminus (L.rplus x a) x = a := by
  obtain ⟨g, D, h1, -, -⟩ := h.local_log 0 (by rw [h.drExp_zero]; simp)
  obtain ⟨ρ, hρ, hb⟩ := Metric.eventually_nhds_iff.1 h1
  refine ⟨fun y x => g (((x⁻¹ * y : G) : 𝔸ˣ) : 𝔸), ρ, hρ, fun x a ha => ?_⟩
  have e : (((x⁻¹ * L.rplus x a : G) : 𝔸ˣ) : 𝔸) = NormedSpace.exp (hat a) := by
    have := h.rplus x a
    rw [Subgroup.coe_mul, Units.val_mul, this, Subgroup.coe_inv, Units.inv_mul_cancel_left]
  simp only [e]
  exact hb (by rwa [dist_zero_right])

end

open scoped Matrix.Norms.Operator

/-- Rigid motions of the plane. -/
noncomputable abbrev se2 : LieOps (semi (SO 2)) ℝ 3 := lin (semi (SO 2)) (semiHat so2Hat) (semiHat_inj so2Hat_inj) (isLin_semi isLin_SO2)

theorem se2_ad (a : Fin 3 → ℝ) : se2.ad a = !![0, -a 2, a 1; a 2, 0, -a 0; 0, 0, 0] := by
  refine Matrix.ext_of_mulVec_single fun j => ?_
  apply se2_isLie.hat_inj
  refine (se2_isLie.ad a (Pi.single j 1)).trans (Subtype.ext ?_)
  change semiMat so2Hat a * semiMat so2Hat (Pi.single j 1) - semiMat so2Hat (Pi.single j 1) * semiMat so2Hat a = semiMat so2Hat (!![0, -a 2, a 1; a 2, 0, -a 0; 0, 0, 0] *ᵥ Pi.single j 1)
  unfold semiMat
  rw [Matrix.fromBlocks_multiply, Matrix.fromBlocks_multiply, sub_eq_add_neg, Matrix.fromBlocks_neg, Matrix.fromBlocks_add, Matrix.fromBlocks_inj]
  refine ⟨?_, ?_, ?_, ?_⟩
  · ext p q
    fin_cases j <;> fin_cases p <;> fin_cases q <;> simp [so2Hat, Matrix.mul_apply, Fin.sum_univ_succ]
  · ext p q
    have e0 : Fin.castAdd 1 (0 : Fin 2) = (0 : Fin 3) := rfl
    have e1 : Fin.castAdd 1 (1 : Fin 2) = (1 : Fin 3) := rfl
    fin_cases j <;> fin_cases p <;> simp [so2Hat, Matrix.mul_apply, Fin.sum_univ_succ, Matrix.vecHead, Matrix.vecTail, Pi.single_apply, e0, e1]
  · simp
  · simp

/-- On the rigid motions of the plane, near the trajectory, every part of the theorem applies; there are such starts other than the desired one. -/
example : ∃ rminus : semi (SO 2) → semi (SO 2) → Fin 3 → ℝ, ∃ δ > 0, ∀ (one g0 : semi (SO 2)) (n : ℕ) (e v : Fin 3 → ℝ), v 1 = 0 → ‖e‖ < δ → ‖v - ![1, 0, 2 / 5]‖ < δ →
    ∀ (k : ℕ) r, (main se2 rminus one g0 n (se2.rplus g0 e, v))[k]? = some r →
      ∃ a, r.1.1 = se2.rplus (se2.rplus g0 (((k : ℝ) / 20) • ![1, 0, 2 / 5])) a ∧ ‖a‖ ≤ 100 * (997 / 1000) ^ k * max ‖e‖ ‖v - ![1, 0, 2 / 5]‖ := by
  obtain ⟨rminus, hlog⟩ := exists_rminus se2_isLie
  obtain ⟨δ, hδ, H⟩ := pid_se2_converges se2_isLie se2_ad hlog
  exact ⟨rminus, δ, hδ, fun one g0 n e v hv he hw k r hr => (H one g0 n e v hv he hw k r hr).1⟩

example (δ : ℝ) (hδ : 0 < δ) : ∃ e v : Fin 3 → ℝ, e ≠ 0 ∧ v ≠ ![1, 0, 2 / 5] ∧ v 1 = 0 ∧ ‖e‖ < δ ∧ ‖v - ![1, 0, 2 / 5]‖ < δ := by
  have hs : ‖(Pi.single 0 (δ / 2) : Fin 3 → ℝ)‖ < δ := by
    rw [Pi.norm_single, Real.norm_eq_abs, abs_of_pos (by positivity)]
    linarith
  have h0 : (Pi.single 0 (δ / 2) : Fin 3 → ℝ) ≠ 0 := fun h => by
    have := congrFun h 0
    simp at this
    exact hδ.ne' this
  refine ⟨Pi.single 0 (δ / 2), ![1, 0, 2 / 5] + Pi.single 0 (δ / 2), h0, fun h => h0 (left_eq_add.1 h.symm), by simp, hs, by rwa [add_sub_cancel_left]⟩

/-- A run of two turns whose first input is at its limit. -/
example : main (vec ℚ 3) (fun y x => y - x) 0 ![1 / 2, 1 / 4, 0] 2 (0, ![1 / 4, 0, 0]) =
    [((0, ![1 / 4, 0, 0]), ![1, 19 / 40]), ((![11 / 800, 0, 19 / 32000], ![3 / 10, 0, 19 / 800]), ![1, 15061 / 32000])] := by decide +kernel

end Verif.PIDSe2
