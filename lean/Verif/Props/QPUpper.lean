import Verif.Props.QPVerdicts
import Verif.Props.QPAlways

/-! # Programs that store the upper triangle of the cost (C102) -/

set_option linter.unusedSectionVars false

namespace Verif.QP

open Matrix Verif.QPSpec

variable {F : Type*} [Field F] [LinearOrder F] [IsStrictOrderedRing F] {n m : ℕ}

/-- The program that is meant when only the upper triangle of `P` is stored (qp.hpp:63). -/
def symPbm (p : Pbm F n m) : Pbm F n m := { p with P := fun i j => if i ≤ j then p.P i j else p.P j i }

theorem kkt_symPbm (sigma : F) (p : Pbm F n m) (s : Scaling F n m) (rho : Fin m → F) : symUpper (kkt sigma (symPbm p) s rho) = symUpper (kkt sigma p s rho) := by
  funext a b
  cases a with
  | inl i =>
    cases b with
    | inl j =>
      simp only [symUpper, kkt, symPbm]
      by_cases h : i ≤ j
      · simp [h]
      · simp [h, le_of_not_ge h]
    | inr j => rfl
  | inr i => cases b <;> rfl

variable {env : Env F n} {prm : Params F} {p : Pbm F n m} {fuel : ℕ}

/-- From a solution of the program that is meant, every iterate is that solution. -/
theorem upper_iterates (hl : LdltOk env) (hP : Lin.PSD (symPbm p).P) (hsig : 0 < prm.sigma) (hr : 0 < prm.rho) {s : Scaling F n m} (hs : s.Pos)
    {slv : (Fin n ⊕ Fin m → F) → (Fin n ⊕ Fin m → F)} (hf : env.factor m (kkt prm.sigma p s (rhoVec prm p s)) = some slv)
    {x : Fin n → F} {y : Fin m → F} (h : KKT (symPbm p) x y) (i : ℕ) : iterates prm p s slv (some (x, y)) i = start p s (some (x, y)) := by
  induction i with
  | zero => rfl
  | succ i ih =>
    rw [iterates_succ, ih]
    have hslv : ∀ b, symUpper (kkt prm.sigma (symPbm p) s (rhoVec prm p s)) *ᵥ slv b = b := by
      intro b
      rw [kkt_symPbm]
      exact hl _ _ _ hf b
    exact step_fix (p := symPbm p) hP hs hsig (fun _ => rhoOf_pos hr _ _) hslv h

/-- `x`, `y` solve the program that is meant, the stored matrix makes them miss the dual tolerance, and some row has two finite bounds. Then no
check finds anything. -/
theorem upper_check {x : Fin n → F} {y : Fin m → F}
    (hbad : ∀ rd, Tol prm.epsAbs prm.epsRel (p.P *ᵥ x) p.q (p.Aᵀ *ᵥ y) rd → ∃ j, rd < |(p.P *ᵥ x) j + p.q j + (p.Aᵀ *ᵥ y) j|)
    {i₀ : Fin m} (h1 : p.l i₀ ≠ .neg) (h2 : p.u i₀ ≠ .pos) (z : Fin m → F) : checkStopping prm p x y z 0 0 = none := by
  have ho : optimalTest prm p x y z = false := by
    by_contra hc
    rw [Bool.not_eq_false] at hc
    simp only [optimalTest, Bool.and_eq_true, decide_eq_true_eq] at hc
    obtain ⟨j, hj⟩ := hbad _ ⟨_, _, _, norm_isMaxNorm _, norm_isMaxNorm _, norm_isMaxNorm _, rfl⟩
    have hn := (norm_isMaxNorm (p.P *ᵥ x + (p.q + p.Aᵀ *ᵥ y))).2.1 j
    have e : (p.P *ᵥ x + (p.q + p.Aᵀ *ᵥ y)) j = (p.P *ᵥ x) j + p.q j + (p.Aᵀ *ᵥ y) j := by simp [add_assoc]
    rw [e] at hn
    exact absurd (hn.trans hc.2) (not_le.2 hj)
  have hp : primalInfTest prm p 0 = false := by
    unfold primalInfTest
    split
    · rfl
    · rw [decide_eq_false_iff_not, norm_zero, mul_zero, Matrix.mulVec_zero, norm_zero, not_lt]
      exact le_max_left _ _
  have hd : dualInfTest prm p 0 = false := by
    unfold dualInfTest
    rw [Bool.and_eq_false_iff]
    right
    rw [List.all_eq_false]
    refine ⟨i₀, List.mem_finRange _, ?_⟩
    rw [norm_zero, Matrix.mulVec_zero]
    cases hl : p.l i₀ <;> cases hu : p.u i₀ <;> simp_all [dualRow]
  unfold checkStopping
  rw [ho, hp, hd]
  rfl

/-- **C102, what goes wrong in the solver.** Store only the upper triangle of `P`, as the documentation of `QuadraticProgram` says (qp.hpp:63) and as
`ocp_to_qp` does, and start at an exact solution. The iterates stay there, but the stopping test multiplies with the stored matrix
(qp_solver.hpp:589), so if that misses the tolerance the solver never says Optimal: it runs until a limit, and for ever without one. -/
theorem qp_upper_stuck (hsq : SqrtPos env) (hl : LdltOk env) (hP : Lin.PSD (symPbm p).P) (hsig : 0 < prm.sigma) (hr : 0 < prm.rho)
    (hf : ∀ s : Scaling F n m, s.Pos → env.factor m (kkt prm.sigma p s (rhoVec prm p s)) ≠ none) {x : Fin n → F} {y : Fin m → F} (h : KKT (symPbm p) x y)
    (hbad : ∀ rd, Tol prm.epsAbs prm.epsRel (p.P *ᵥ x) p.q (p.Aᵀ *ᵥ y) rd → ∃ j, rd < |(p.P *ᵥ x) j + p.q j + (p.Aᵀ *ᵥ y) j|)
    {i₀ : Fin m} (h1 : p.l i₀ ≠ .neg) (h2 : p.u i₀ ≠ .pos) (sol : Sol F n m) (hsol : solveQP env prm p (some (x, y)) fuel = .ok sol) :
    (sol.code = .maxIterations ∨ sol.code = .maxTime) ∧ sol.primal = x ∧ sol.dual = y := by
  obtain ⟨s, hs, hss⟩ := solveQP_ok hsol
  have hpos := chosenScaling_pos hsq hs
  obtain ⟨slv, hslv⟩ := Option.ne_none_iff_exists'.1 (hf s hpos)
  obtain ⟨k, r, hfacts, hcon⟩ := solveScaled_facts hss
  have hprep : prepare env prm p s = (slv, none) := by
    rcases prepare_cases env prm p s with ⟨k1, -⟩ | ⟨slv', k1, k2⟩
    · rw [hslv] at k1; cases k1
    · rw [hslv] at k1; cases k1
      have : Feasible p x := h.1
      rw [k2, precheck_of_feasible this]
  have hit := upper_iterates (p := p) hl hP hsig hr hpos hslv h
  rw [hprep] at hcon
  dsimp only at hcon
  rw [hit] at hcon
  have hr' : r = none ∨ r = some .maxTime := by
    rcases run_code hfacts with ⟨-, -, k3⟩ | ⟨-, ⟨rfl, -, k3⟩ | ⟨rfl, -⟩ | ⟨-, k', rfl, -, c, rfl, h3⟩⟩
    · rw [hslv] at k3; cases k3
    · have : Feasible p x := h.1
      rw [precheck_of_feasible this] at k3; cases k3
    · exact Or.inl rfl
    · rw [hprep] at h3
      dsimp only at h3
      rw [hit, hit] at h3
      unfold check at h3
      have e1 : s.unX ((start p s (some (x, y))).x - (start p s (some (x, y))).x) = 0 := by
        funext j; simp [Scaling.unX]
      have e2 : s.unY ((start p s (some (x, y))).y - (start p s (some (x, y))).y) = 0 := by
        funext j; simp [Scaling.unY]
      rw [e1, e2, start_unX hpos, start_unY hpos, upper_check hbad h1 h2] at h3
      dsimp only at h3
      split at h3
      · split_ifs at h3
        exact Or.inr h3.symm
      · cases h3
  rw [conclude_nopolish (Or.inr (by rcases hr' with rfl | rfl <;> simp))] at hcon
  simp only [Out.ok.injEq] at hcon
  subst hcon
  refine ⟨?_, start_unX hpos x y, start_unY hpos x y⟩
  rcases hr' with rfl | rfl
  · exact Or.inl rfl
  · exact Or.inr rfl

/-- Without limits it does not return. -/
theorem qp_upper_never_returns {env : Env ℝ n} {prm : Params ℝ} {p : Pbm ℝ n m} (hsq : SqrtPos env) (hl : LdltOk env) (hP : Lin.PSD (symPbm p).P) (hsig : 0 < prm.sigma) (hr : 0 < prm.rho)
    (hf : ∀ s : Scaling ℝ n m, s.Pos → env.factor m (kkt prm.sigma p s (rhoVec prm p s)) ≠ none) {x : Fin n → ℝ} {y : Fin m → ℝ} (h : KKT (symPbm p) x y)
    (hbad : ∀ rd, Tol prm.epsAbs prm.epsRel (p.P *ᵥ x) p.q (p.Aᵀ *ᵥ y) rd → ∃ j, rd < |(p.P *ᵥ x) j + p.q j + (p.Aᵀ *ᵥ y) j|)
    {i₀ : Fin m} (h1 : p.l i₀ ≠ .neg) (h2 : p.u i₀ ≠ .pos) (hsc : prm.stopCheckIter ≠ 0) (hmax : prm.maxIter = none) (ht : prm.maxTime = none)
    (hdim : prm.scaling = true → n ≠ 0 ∧ m ≠ 0) (fuel : ℕ) : solveQP env prm p (some (x, y)) fuel = .timeout := by
  obtain ⟨s, hs⟩ := chosenScaling_some env prm p hdim
  have hpos := chosenScaling_pos hsq hs
  obtain ⟨slv, hslv⟩ := Option.ne_none_iff_exists'.1 (hf s hpos)
  have hprep : prepare env prm p s = (slv, none) := by
    rcases prepare_cases env prm p s with ⟨k1, -⟩ | ⟨slv', k1, k2⟩
    · rw [hslv] at k1; cases k1
    · rw [hslv] at k1; cases k1
      have : Feasible p x := h.1
      rw [k2, precheck_of_feasible this]
  have hit := upper_iterates (p := p) hl hP hsig hr hpos hslv h
  have hv : ∀ i, verdict env prm p s (iterates prm p s slv (some (x, y))) i = none := by
    intro i
    unfold verdict
    split_ifs
    · rw [hit, hit]
      unfold check
      have e1 : s.unX ((start p s (some (x, y))).x - (start p s (some (x, y))).x) = 0 := by
        funext j; simp [Scaling.unX]
      have e2 : s.unY ((start p s (some (x, y))).y - (start p s (some (x, y))).y) = 0 := by
        funext j; simp [Scaling.unY]
      rw [e1, e2, start_unX hpos, start_unY hpos, upper_check hbad h1 h2, ht]
    · rfl
  have hloop := loop_timeout (env := env) (p := p) (s := s) (iterates_succ prm p s slv (some (x, y))) hsc hmax hv fuel 0
  rw [solveQP_eq, hs]
  simp only
  rw [solveScaled_eq, hprep]
  dsimp only
  rw [hloop]

end Verif.QP
