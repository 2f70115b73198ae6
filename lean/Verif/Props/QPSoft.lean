import Verif.Props.QPSquare
import Verif.Proofs.MPCFuel
import Mathlib.Tactic.Linarith

/-! # Softened constraints exclude both infeasibility verdicts (C125) -/

set_option linter.unusedSectionVars false

namespace Verif.QP

open Matrix Verif.QPSpec

/-- More fuel does not change the result of a solve. -/
theorem solveQP_fuel {F : Type*} [Field F] [LinearOrder F] {n m : ℕ} {env : Env F n} {prm : Params F} {p : Pbm F n m} {ws : Option ((Fin n → F) × (Fin m → F))}
    {fuel fuel' : ℕ} (hle : fuel ≤ fuel') {sol : Sol F n m} (h : solveQP env prm p ws fuel = .ok sol) : solveQP env prm p ws fuel' = .ok sol := by
  unfold solveQP solve solveScaled at h ⊢
  split at h
  · rename_i r hr
    split at hr
    · cases hr
    · rename_i s hs
      split at hr
      · rename_i r' hr'
        split at hr'
        · rename_i iter ret it hl
          simp only [loop_fuel hle _ _ _ hl, hr']
          cases hr
          exact h
        · cases hr'
        · cases hr'
      · cases hr
      · cases hr
  · cases h
  · cases h

variable {n m : ℕ} {env : Env ℝ n} {prm : Params ℝ} {p : Pbm ℝ n m} {ws : Option ((Fin n → ℝ) × (Fin m → ℝ))} {fuel : ℕ} {sol : Sol ℝ n m}

/-- The variable `c` relaxes the rows `S`, which are bounded below only and whose other coefficients are at most `a`; every other row has a variable of its own among the
rows outside `S`. -/
structure Softened (p : Pbm ℝ n m) (S : Finset (Fin m)) (c : Fin n) (a : ℝ) : Prop where
  col : ∀ i, p.A i c = if i ∈ S then 1 else 0
  above : ∀ i ∈ S, p.u i = .pos
  bound : ∀ i ∈ S, ∀ j, j ≠ c → |p.A i j| ≤ a
  own : ∀ i, i ∉ S → ∃ j, j ≠ c ∧ p.A i j = 1 ∧ ∀ i', i' ∉ S → i' ≠ i → p.A i' j = 0

/-- No approximate Farkas certificate. -/
theorem softened_farkas {S : Finset (Fin m)} {c : Fin n} {a e : ℝ} (hp : Softened p S c a) (ha : 0 ≤ a) (he : 0 ≤ e) (h1 : e * (2 * S.card + 1) ≤ 1)
    (h2 : e * (1 + a * (2 * S.card + 1)) ≤ 1) (d : Fin m → ℝ) : ¬ ApproxFarkas p e d := by
  rintro ⟨r, ⟨-, hr1, hr2⟩, hr, hA, -, hs⟩
  have hcol : ∀ j, (p.Aᵀ *ᵥ d) j = ∑ i ∈ S, p.A i j * d i + ∑ i ∈ Sᶜ, p.A i j * d i := by
    intro j
    rw [Finset.sum_add_sum_compl]
    rfl
  have hsum : |∑ i ∈ S, d i| < e * r := by
    have := hA c
    rw [hcol c, Finset.sum_congr rfl (fun i hi => by rw [hp.col i, if_pos hi, one_mul]),
      Finset.sum_eq_zero (s := Sᶜ) (fun i hi => by rw [hp.col i, if_neg (Finset.mem_compl.1 hi), zero_mul]), add_zero] at this
    exact this
  have habs : ∑ i ∈ S, |d i| < (2 * S.card + 1) * (e * r) := by
    have h3 : ∀ i ∈ S, |d i| ≤ 2 * (e * r) - d i := by
      intro i hi
      have := (hs i).1 (hp.above i hi)
      have : 0 ≤ e * r := by positivity
      rw [abs_le]
      constructor <;> linarith
    have h4 := Finset.sum_le_sum h3
    rw [Finset.sum_sub_distrib, Finset.sum_const, nsmul_eq_mul] at h4
    have := (abs_lt.1 hsum).1
    linarith
  have hrow : ∀ i, |d i| < r := by
    intro i
    by_cases hi : i ∈ S
    · have h3 := Finset.single_le_sum (f := fun i => |d i|) (fun i _ => abs_nonneg _) hi
      have h4 := mul_le_mul_of_nonneg_right h1 hr.le
      linarith
    · obtain ⟨j, hj, h3, h4⟩ := hp.own i hi
      have h5 := hcol j
      rw [Finset.sum_eq_single (s := Sᶜ) i (fun i' hi' hne => by rw [h4 i' (Finset.mem_compl.1 hi') hne, zero_mul])
        (fun h => absurd (Finset.mem_compl.2 hi) h), h3, one_mul] at h5
      have h6 : |∑ i ∈ S, p.A i j * d i| ≤ a * ∑ i ∈ S, |d i| := by
        rw [Finset.mul_sum]
        refine (Finset.abs_sum_le_sum_abs _ _).trans (Finset.sum_le_sum fun k hk => ?_)
        rw [abs_mul]
        exact mul_le_mul_of_nonneg_right (hp.bound k hk j hj) (abs_nonneg _)
      have h7 := hA j
      have h8 : |d i| ≤ |(p.Aᵀ *ᵥ d) j| + |∑ i ∈ S, p.A i j * d i| := by
        have := abs_sub ((p.Aᵀ *ᵥ d) j) (∑ i ∈ S, p.A i j * d i)
        rwa [h5, add_sub_cancel_left, ← h5] at this
      have h9 := mul_le_mul_of_nonneg_left habs.le ha
      have h10 := mul_le_mul_of_nonneg_right h2 hr.le
      linarith
  rcases hr2 with h | ⟨i, h⟩
  · exact absurd h hr.ne'
  · exact absurd (hrow i) (not_lt.2 h.le)

/-- A cost that grows in every variable, beside a row with two finite bounds, excludes the dual verdict. -/
theorem diagonal_dual {w : Fin n → ℝ} {dx : Fin n → ℝ} (hP : p.P = Matrix.diagonal w) (hw : ∀ j, prm.epsDualInf < w j)
    (hrow : ∃ i a b, p.l i = .fin a ∧ p.u i = .fin b) : dualInfTest prm p dx = false := by
  rw [← Bool.not_eq_true]
  intro h
  unfold dualInfTest at h
  simp only [Bool.and_eq_true, decide_eq_true_eq, List.all_eq_true] at h
  obtain ⟨⟨h1, -⟩, h2⟩ := h
  obtain ⟨i, a, b, hl, hu⟩ := hrow
  have h3 := h2 i (List.mem_finRange i)
  rw [hl, hu] at h3
  simp only [dualRow, decide_eq_true_eq] at h3
  obtain ⟨n0, n1, n2⟩ := norm_isMaxNorm dx
  obtain ⟨-, m1, -⟩ := norm_isMaxNorm (p.P *ᵥ dx)
  rcases n2 with h | ⟨j, hj⟩
  · rw [h, mul_zero] at h3
    exact absurd h3 (not_lt.2 (abs_nonneg _))
  · have h4 := m1 j
    rw [hP, mulVec_diagonal, abs_mul, ← hj, ← hP] at h4
    have h5 : 0 < prm.epsDualInf * norm dx := lt_of_le_of_lt (abs_nonneg _) h3
    have h6 : 0 < norm dx := by
      rcases n0.eq_or_lt with h | h
      · rw [← h, mul_zero] at h5; exact absurd h5 (lt_irrefl _)
      · exact h
    have h7 := mul_lt_mul_of_pos_right (lt_of_lt_of_le (hw j) (le_abs_self (w j))) h6
    linarith

/-- **C125, the solver.** A feasible program whose constraints are softened, with a cost that grows in every variable and a row with two finite bounds, is never called
infeasible once the tolerances are small enough for the number of softened rows and the size of their coefficients. -/
theorem qp_soft_verdict {S : Finset (Fin m)} {c : Fin n} {a : ℝ} {w : Fin n → ℝ} (hp : Softened p S c a) (ha : 0 ≤ a) (hP : p.P = Matrix.diagonal w)
    (hw : ∀ j, prm.epsDualInf < w j) (hrow : ∃ i a b, p.l i = .fin a ∧ p.u i = .fin b) (hfeas : ∃ x, Feasible p x) (hep : 0 ≤ prm.epsPrimalInf)
    (h1 : prm.epsPrimalInf * (2 * S.card + 1) ≤ 1) (h2 : prm.epsPrimalInf * (1 + a * (2 * S.card + 1)) ≤ 1) (h : solveQP env prm p ws fuel = .ok sol) :
    sol.code ≠ .primalInfeasible ∧ sol.code ≠ .dualInfeasible := by
  constructor
  · intro hc
    rcases qp_primal_infeasible_partial hep h hc with ⟨-, h3⟩ | ⟨d, -, hF, -⟩
    · obtain ⟨x, hx⟩ := hfeas
      exact h3 x hx
    · exact softened_farkas hp ha hep h1 h2 d hF
  · intro hc
    obtain ⟨s, k, -, -, h3⟩ := dual_verdict h hc
    rw [diagonal_dual hP hw hrow] at h3
    cases h3

end Verif.QP
