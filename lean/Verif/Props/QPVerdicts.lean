import Verif.Proofs.QPRun
import Verif.Proofs.QPWitness
import Verif.Proofs.QPScale

/-! # Verdicts of the QP solver (C06 - C13, C65) -/

set_option linter.unusedSectionVars false

namespace Verif.QP

open Matrix Verif.QPSpec

variable {F : Type*} [Field F] [LinearOrder F] [IsStrictOrderedRing F] {n m : ℕ}
  {env : Env F n} {prm : Params F} {p : Pbm F n m} {ws : Option ((Fin n → F) × (Fin m → F))} {fuel : ℕ} {sol : Sol F n m}

/-! ## C06 -/

/-- **C06, negation.** With default parameters the solver calls `1 ≤ 1e-6 x ≤ 2` primal infeasible although `x = 1e6`
satisfies it, in exact arithmetic. -/
theorem qp_primal_infeasible_unsound : ∃ sol, solveQP env1 Params.default flatPbm none 10 = .ok sol ∧
    sol.code = .primalInfeasible ∧ ∃ x, Feasible flatPbm x := by
  obtain ⟨sol, h, h1, -⟩ := flat_run
  refine ⟨sol, h, h1, fun _ => 1000000, fun i => ?_⟩
  norm_num [flatPbm, lower, upper, Matrix.mulVec, dotProduct]

/-- **C06, partial.** `PrimalInfeasible` means a row with empty bounds, and then there is no feasible point, or an
approximate Farkas certificate `d`, and then every feasible point satisfies
`-support d ≤ eps |d| (|x|_1 + |Ax|_1)`. Missing: the certificate is approximate, so feasible points of large norm are
not excluded (see the negation above). -/
theorem qp_primal_infeasible_partial (he : 0 ≤ prm.epsPrimalInf) (h : solveQP env prm p ws fuel = .ok sol)
    (hc : sol.code = .primalInfeasible) :
    (sol.iter = 0 ∧ ∀ x, ¬ Feasible p x) ∨
    ∃ d r, ApproxFarkas p prm.epsPrimalInf d ∧ IsMaxNorm d r ∧
      ∀ x, Feasible p x → -support p d ≤ prm.epsPrimalInf * r * (∑ j, |x j| + ∑ i, |(p.A *ᵥ x) i|) := by
  obtain ⟨s, hs, h1⟩ := solveQP_ok h
  obtain ⟨k, r, hf, hcon⟩ := solveScaled_facts h1
  have hcode := conclude_code hcon
  rw [hc] at hcode
  rcases run_code hf with ⟨h2, -⟩ | ⟨-, ⟨-, h2, h3⟩ | ⟨h2, -⟩ | ⟨-, k', -, -, c, h2, h3⟩⟩
  · rw [h2] at hcode; cases hcode.1
  · left
    refine ⟨by rw [hcode.2.1, h2], fun x hx => ?_⟩
    rw [precheck_of_feasible hx] at h3; cases h3
  · rw [h2] at hcode; cases hcode.1
  · right
    rw [h2] at hcode
    have : c = .primalInfeasible := hcode.1.symm
    subst this
    rcases check_codes h3 with ⟨h4, -⟩ | ⟨-, h4⟩ | ⟨h4, -⟩ | ⟨h4, -⟩
    · cases h4
    · have hF := primalInfTest_spec h4
      obtain ⟨r, hr, hr0, h5, h6, h7⟩ := id hF
      exact ⟨_, r, hF, hr, fun x hx => farkas_excludes he hr0.le (fun j => (h5 j).le) h7 hx⟩
    · cases h4
    · cases h4

/-- **C06.** With a non-positive tolerance the verdict is sound. -/
theorem qp_primal_infeasible_zero_tol (he : prm.epsPrimalInf ≤ 0) (h : solveQP env prm p ws fuel = .ok sol)
    (hc : sol.code = .primalInfeasible) (x : Fin n → F) : ¬ Feasible p x := by
  obtain ⟨s, hs, h1⟩ := solveQP_ok h
  obtain ⟨k, r, hf, hcon⟩ := solveScaled_facts h1
  have hcode := conclude_code hcon
  rw [hc] at hcode
  intro hx
  rcases run_code hf with ⟨h2, -⟩ | ⟨-, ⟨-, h2, h3⟩ | ⟨h2, -⟩ | ⟨-, k', -, -, c, h2, h3⟩⟩
  · rw [h2] at hcode; cases hcode.1
  · rw [precheck_of_feasible hx] at h3; cases h3
  · rw [h2] at hcode; cases hcode.1
  · rw [h2] at hcode
    have : c = .primalInfeasible := hcode.1.symm
    subst this
    rcases check_codes h3 with ⟨h4, -⟩ | ⟨-, h4⟩ | ⟨h4, -⟩ | ⟨h4, -⟩
    · cases h4
    · unfold primalInfTest at h4
      split at h4
      · cases h4
      · rw [decide_eq_true_eq] at h4
        have h5 := lt_of_le_of_lt (le_max_left _ _) h4
        have h6 := mul_nonpos_of_nonpos_of_nonneg he (norm_nonneg (s.unY
          ((iterates prm p s (prepare env prm p s).1 ws (k' + 1)).y - (iterates prm p s (prepare env prm p s).1 ws k').y)))
        have h7 := norm_nonneg (p.Aᵀ *ᵥ s.unY
          ((iterates prm p s (prepare env prm p s).1 ws (k' + 1)).y - (iterates prm p s (prepare env prm p s).1 ws k').y))
        linarith
    · cases h4
    · cases h4

/-- The hypotheses of both are met: the runs of `flatPbm`, and a problem with the row `2 ≤ x ≤ 1`. -/
example : (∃ sol, solveQP env1 Params.default flatPbm none 10 = .ok sol ∧ sol.code = .primalInfeasible ∧ 0 < sol.iter) ∧
    ∃ sol, solveQP env1 { Params.default with epsPrimalInf := 0 } (⟨1, 0, 1, fun _ => .fin 2, fun _ => .fin 1⟩ : Pbm ℚ 1 1) none 10 = .ok sol ∧
      sol.code = .primalInfeasible := by
  constructor
  · obtain ⟨sol, h, h1, h2⟩ := flat_run
    exact ⟨sol, h, h1, by omega⟩
  · obtain ⟨sol, h, h'⟩ := Out.test_iff (o := solveQP env1 { Params.default with epsPrimalInf := 0 }
      (⟨1, 0, 1, fun _ => .fin 2, fun _ => .fin 1⟩ : Pbm ℚ 1 1) none 10)
      (f := fun sol => decide (sol.code = .primalInfeasible)) (by decide +kernel)
    exact ⟨sol, h, of_decide_eq_true h'⟩

/-! ## C07 -/

/-- **C07, negation.** With default parameters the solver calls `min 0` subject to `1 ≤ x` dual infeasible although
every feasible point is a minimiser, in exact arithmetic. -/
theorem qp_dual_infeasible_unsound : ∃ sol, solveQP env1 Params.default halfLinePbm none 10 = .ok sol ∧
    sol.code = .dualInfeasible ∧ ¬ Unbounded halfLinePbm ∧ Minimiser halfLinePbm (fun _ => 1) := by
  obtain ⟨sol, h, h1, -⟩ := halfLine_run
  refine ⟨sol, h, h1, fun hu => ?_, ?_, ?_⟩
  · obtain ⟨x, -, hx⟩ := hu 0
    simp [cost, halfLinePbm] at hx
  · intro i; simp [halfLinePbm, lower, upper]
  · intro w _; simp [cost, halfLinePbm]

/-- **C07, partial.** `DualInfeasible` means that an approximate direction of unboundedness was found; if it is an exact
one and there is a feasible point, the objective is unbounded below. Missing: the code accepts
`q·d ≤ eps |d|` where the certificate needs `q·d < 0` (see the negation above). -/
theorem qp_dual_infeasible_partial (he : 0 ≤ prm.epsDualInf) (hP : p.P.IsSymm) (h : solveQP env prm p ws fuel = .ok sol)
    (hc : sol.code = .dualInfeasible) :
    ∃ d, ApproxRecession p prm.epsDualInf d ∧ (Recession p d → (∃ x, Feasible p x) → Unbounded p) := by
  obtain ⟨s, hs, h1⟩ := solveQP_ok h
  obtain ⟨k, r, hf, hcon⟩ := solveScaled_facts h1
  have hcode := conclude_code hcon
  rw [hc] at hcode
  rcases run_code hf with ⟨h2, -⟩ | ⟨-, ⟨h2, -⟩ | ⟨h2, -⟩ | ⟨-, k', -, -, c, h2, h3⟩⟩
  · rw [h2] at hcode; cases hcode.1
  · rw [h2] at hcode; cases hcode.1
  · rw [h2] at hcode; cases hcode.1
  · rw [h2] at hcode
    have : c = .dualInfeasible := hcode.1.symm
    subst this
    rcases check_codes h3 with ⟨h4, -⟩ | ⟨h4, -⟩ | ⟨-, h4⟩ | ⟨h4, -⟩
    · cases h4
    · cases h4
    · exact ⟨_, dualInfTest_spec he h4, fun h5 ⟨x, hx⟩ => recession_unbounded hP h5 hx⟩
    · cases h4

/-- The hypotheses are met. -/
example : ∃ sol, solveQP env1 Params.default halfLinePbm none 10 = .ok sol ∧ sol.code = .dualInfeasible ∧
    halfLinePbm.P.IsSymm := by
  obtain ⟨sol, h, h1, -⟩ := halfLine_run
  exact ⟨sol, h, h1, by simp [halfLinePbm]⟩

/-! ## C08 -/

/-- **C08.** With an iteration budget the solver ends within it, whatever the factorisation and the clock do. -/
theorem qp_budget_terminates {e : ℕ} (hmax : prm.maxIter = some e) (hsc : prm.stopCheckIter ≠ 0)
    (hdim : prm.scaling = true → n ≠ 0 ∧ m ≠ 0) (hfuel : e + 1 ≤ fuel) :
    ∃ sol, solveQP env prm p ws fuel = .ok sol ∧ sol.iter ≤ e := by
  obtain ⟨s, hs⟩ := chosenScaling_some env prm p hdim
  rw [solveQP_eq, hs]
  exact solveScaled_ends hsc (Or.inl hmax) hfuel

/-- What each exit code of a run with scaling `s` means; `t i` is iterate `i`, in the user's coordinates. -/
def CodeMeaning (env : Env F n) (prm : Params F) (p : Pbm F n m) (s : Scaling F n m) (t : ℕ → It F n m) (k : ℕ) :
    Status → Prop
  | .unknown => k = 0 ∧ env.factor m (kkt prm.sigma p s (rhoVec prm p s)) = none
  | .polishFailed => False
  | .maxIterations => prm.maxIter = some k
  | .maxTime => ∃ j b, k = j + 1 ∧ j % prm.stopCheckIter = 1 ∧ prm.maxTime = some b ∧ env.t0 + b < env.now j
  | .optimal => ∃ j, k = j + 1 ∧ j % prm.stopCheckIter = 1 ∧
      (∃ rp, Tol prm.epsAbs prm.epsRel (p.A *ᵥ (t k).x) (t k).z (t k).z rp ∧ ∀ i, |(p.A *ᵥ (t k).x) i - (t k).z i| ≤ rp) ∧
      ∃ rd, Tol prm.epsAbs prm.epsRel (p.P *ᵥ (t k).x) p.q (p.Aᵀ *ᵥ (t k).y) rd ∧
        ∀ j, |(p.P *ᵥ (t k).x) j + p.q j + (p.Aᵀ *ᵥ (t k).y) j| ≤ rd
  | .primalInfeasible => (k = 0 ∧ ∃ i, ∀ w, ¬ (lower (p.l i) w ∧ upper (p.u i) w)) ∨
      ∃ j, k = j + 1 ∧ j % prm.stopCheckIter = 1 ∧ ApproxFarkas p prm.epsPrimalInf ((t (j + 1)).y - (t j).y)
  | .dualInfeasible => ∃ j, k = j + 1 ∧ j % prm.stopCheckIter = 1 ∧
      ApproxRecession p prm.epsDualInf ((t (j + 1)).x - (t j).x)

/-- The iterates in the user's coordinates. -/
def userIterate (env : Env F n) (prm : Params F) (p : Pbm F n m) (s : Scaling F n m)
    (ws : Option ((Fin n → F) × (Fin m → F))) (i : ℕ) : It F n m :=
  ⟨s.unX (iterates prm p s (prepare env prm p s).1 ws i).x, s.unY (iterates prm p s (prepare env prm p s).1 ws i).y,
    s.unZ (iterates prm p s (prepare env prm p s).1 ws i).z⟩

/-- **C08.** Every exit code has its stated cause at the last executed iteration, within the budget. -/
theorem qp_exit_code_meaning (he : 0 ≤ prm.epsDualInf) (h : solveQP env prm p ws fuel = .ok sol) :
    ∃ s, chosenScaling env prm p = some s ∧ (∀ e, prm.maxIter = some e → sol.iter ≤ e) ∧
      CodeMeaning env prm p s (userIterate env prm p s ws) sol.iter sol.code := by
  obtain ⟨s, hs, h1⟩ := solveQP_ok h
  obtain ⟨k, r, hf, hcon⟩ := solveScaled_facts h1
  obtain ⟨hcode, hiter, -⟩ := conclude_code hcon
  rw [hcode, hiter]
  refine ⟨s, hs, fun e he => ?_, ?_⟩
  · by_contra hlt
    exact hf.budget e (not_le.1 hlt) he
  rcases run_code hf with ⟨rfl, rfl, h2⟩ | ⟨-, ⟨rfl, rfl, h3⟩ | ⟨rfl, h3⟩ | ⟨-, k', rfl, hk', c, rfl, h3⟩⟩
  · exact ⟨rfl, h2⟩
  · left
    obtain ⟨i, hi⟩ := precheck_iff.1 h3
    refine ⟨rfl, i, fun w hw => ?_⟩
    rcases emptyRow_iff.1 hi with h | h | ⟨a, b, ha, hb, hab⟩
    · rw [h] at hw; exact hw.1
    · rw [h] at hw; exact hw.2
    · rw [ha, hb] at hw; exact absurd (le_trans hw.1 hw.2) (not_le.2 hab)
  · exact h3
  · have hY : s.unY ((iterates prm p s (prepare env prm p s).1 ws (k' + 1)).y - (iterates prm p s (prepare env prm p s).1 ws k').y)
        = (userIterate env prm p s ws (k' + 1)).y - (userIterate env prm p s ws k').y := by
      funext i; simp only [userIterate, Scaling.unY, Pi.sub_apply]; ring
    have hX : s.unX ((iterates prm p s (prepare env prm p s).1 ws (k' + 1)).x - (iterates prm p s (prepare env prm p s).1 ws k').x)
        = (userIterate env prm p s ws (k' + 1)).x - (userIterate env prm p s ws k').x := by
      funext i; simp only [userIterate, Scaling.unX, Pi.sub_apply]; ring
    rcases check_codes h3 with ⟨rfl, h4⟩ | ⟨rfl, h4⟩ | ⟨rfl, h4⟩ | ⟨rfl, b, h4, h5⟩
    · exact ⟨k', rfl, hk', optimalTest_spec h4⟩
    · exact Or.inr ⟨k', rfl, hk', hY ▸ primalInfTest_spec h4⟩
    · exact ⟨k', rfl, hk', hX ▸ dualInfTest_spec he h4⟩
    · exact ⟨k', b, rfl, hk', h4, h5⟩

/-- **C08.** `Unknown` is returned exactly when the factorisation failed. -/
theorem qp_unknown_iff (h : solveQP env prm p ws fuel = .ok sol) :
    sol.code = .unknown ↔ ∃ s, chosenScaling env prm p = some s ∧ env.factor m (kkt prm.sigma p s (rhoVec prm p s)) = none := by
  obtain ⟨s, hs, h1⟩ := solveQP_ok h
  obtain ⟨k, r, hf, hcon⟩ := solveScaled_facts h1
  obtain ⟨hcode, hiter, -⟩ := conclude_code hcon
  rw [hcode]
  rcases run_code hf with ⟨rfl, rfl, h2⟩ | ⟨h2, h3⟩
  · exact ⟨fun _ => ⟨s, hs, h2⟩, fun _ => rfl⟩
  · constructor
    · intro h4
      exfalso
      rcases h3 with ⟨rfl, -⟩ | ⟨rfl, -⟩ | ⟨-, k', -, -, c, rfl, h3⟩
      · cases h4
      · cases h4
      · have : c = .unknown := h4
        subst this
        rcases check_codes h3 with ⟨h4, -⟩ | ⟨h4, -⟩ | ⟨h4, -⟩ | ⟨h4, -⟩ <;> cases h4
    · rintro ⟨s', hs', h4⟩
      rw [hs] at hs'; cases hs'
      exact absurd h4 h2

/-- **C08.** `MaxIterations` is returned exactly when the factorisation succeeded, no row is trivially empty and no
check up to the budget gave a verdict; then the number of iterations is the budget. -/
theorem qp_max_iterations_iff {s : Scaling F n m} (hs : chosenScaling env prm p = some s)
    (h : solveQP env prm p ws fuel = .ok sol) :
    sol.code = .maxIterations ↔
      env.factor m (kkt prm.sigma p s (rhoVec prm p s)) ≠ none ∧ precheck p = none ∧ prm.maxIter = some sol.iter ∧
      ∀ j, j < sol.iter → j % prm.stopCheckIter = 1 →
        check env prm p s j (iterates prm p s (prepare env prm p s).1 ws j)
          (iterates prm p s (prepare env prm p s).1 ws (j + 1)) = none := by
  obtain ⟨s', hs', h1⟩ := solveQP_ok h
  rw [hs] at hs'; cases hs'
  obtain ⟨k, r, hf, hcon⟩ := solveScaled_facts h1
  obtain ⟨hcode, hiter, -⟩ := conclude_code hcon
  rw [hcode, hiter]
  have noMax : ∀ {i old new}, check env prm p s i old new ≠ some .maxIterations := by
    intro i old new hc
    rcases check_codes hc with ⟨h4, -⟩ | ⟨h4, -⟩ | ⟨h4, -⟩ | ⟨h4, -⟩ <;> cases h4
  constructor
  · intro hc
    rcases hf.cases with ⟨h3, h4, h5⟩ | ⟨h3, h4, h5, h6, h7, h8⟩
    · have hrn : r = none := by
        rcases prepare_cases env prm p s with ⟨-, e⟩ | ⟨slv, -, e⟩
        · rw [h4, e] at hc; cases hc
        · rw [e] at h4
          cases hp : precheck p with
          | none => rw [h4]; exact hp
          | some c => rw [precheck_code hp] at hp; rw [h4] at hc; simp only at hc; rw [hp] at hc; cases hc
      rw [hrn] at h4
      obtain ⟨e1, slv, e2, -⟩ := prepare_none h4.symm
      refine ⟨by rw [e2]; simp, e1, ?_, fun j hj => by omega⟩
      rcases h5 with h5 | h5
      · exact absurd hrn h5
      · rw [h3]; exact h5
    · obtain ⟨e1, slv, e2, -⟩ := prepare_none h4
      have hrn : r = none := by
        cases hr : r with
        | none => rfl
        | some c =>
          rw [hr] at hc h6
          have : c = .maxIterations := hc
          subst this
          unfold verdict at h6
          split at h6
          · exact absurd h6.symm noMax
          · cases h6
      refine ⟨by rw [e2]; simp, e1, ?_, fun j hj hm => ?_⟩
      · rcases h7 with h7 | h7
        · exact absurd hrn h7
        · exact h7
      · have hv : verdict env prm p s (iterates prm p s (prepare env prm p s).1 ws) j = none := by
          rcases Nat.lt_or_ge (j + 1) k with hl | hl
          · exact h8 j hl
          · have : j = k - 1 := by omega
            rw [this, ← h6, hrn]
        unfold verdict at hv
        rwa [if_pos hm] at hv
  · rintro ⟨e1, e2, e3, e4⟩
    rcases run_code hf with ⟨-, -, h2⟩ | ⟨-, ⟨-, -, h3⟩ | ⟨rfl, h3⟩ | ⟨-, k', rfl, hk', c, rfl, h3⟩⟩
    · exact absurd h2 e1
    · rw [e2] at h3; cases h3
    · rfl
    · rw [e4 k' (by omega) hk'] at h3; cases h3

/-- The hypotheses are met by a run that uses up its budget. -/
example : ∃ sol, solveQP env1 { Params.default with maxIter := some 3, epsAbs := 0, epsRel := 0 } lpPbm none 10 = .ok sol ∧
    sol.code = .maxIterations ∧ sol.iter = 3 := by
  obtain ⟨sol, h, h'⟩ := Out.test_iff (o := solveQP env1 { Params.default with maxIter := some 3, epsAbs := 0, epsRel := 0 }
      lpPbm none 10) (f := fun sol => decide (sol.code = .maxIterations ∧ sol.iter = 3)) (by decide +kernel)
  exact ⟨sol, h, of_decide_eq_true h'⟩

/-! ## C09 -/

/-- **C09, negation.** With `stop_check_iter = 1` the criteria are never evaluated (`iter % 1 == 1` never holds): without
an iteration budget a solve never ends, for every problem that passes the pre-check, every time limit and every clock. -/
theorem qp_stop_check_one_diverges (hsc : prm.stopCheckIter = 1) (hmax : prm.maxIter = none) (hpre : precheck p = none)
    (hf : ∀ s : Scaling F n m, env.factor m (kkt prm.sigma p s (rhoVec prm p s)) ≠ none) (sol : Sol F n m) :
    solveQP env prm p ws fuel ≠ .ok sol := by
  intro h
  obtain ⟨s, hs, h1⟩ := solveQP_ok h
  obtain ⟨k, r, hrun, hcon⟩ := solveScaled_facts h1
  rcases run_code hrun with ⟨-, -, h2⟩ | ⟨-, ⟨-, -, h3⟩ | ⟨-, h3⟩ | ⟨-, k', rfl, hk', c, rfl, h3⟩⟩
  · exact hf s h2
  · rw [hpre] at h3; cases h3
  · rw [hmax] at h3; cases h3
  · rw [hsc, Nat.mod_one] at hk'; cases hk'

/-- The hypotheses are met; with `stop_check_iter = 2` the same problem is solved at iteration 2. -/
example : precheck lpPbm = none ∧
    ∃ sol, solveQP env1 { Params.default with stopCheckIter := 2, maxTime := some 0 } lpPbm none 10 = .ok sol ∧ sol.iter = 2 := by
  refine ⟨by decide +kernel, ?_⟩
  obtain ⟨sol, h, h'⟩ := Out.test_iff (o := solveQP env1 { Params.default with stopCheckIter := 2, maxTime := some 0 }
      lpPbm none 10) (f := fun sol => decide (sol.iter = 2)) (by decide +kernel)
  exact ⟨sol, h, of_decide_eq_true h'⟩

/-- In every window of `stop_check_iter ≥ 2` iterations one is checked. -/
theorem window {c : ℕ} (hc : 2 ≤ c) (i : ℕ) : ∃ j, i ≤ j ∧ j < i + c ∧ j % c = 1 := by
  by_cases h : i % c ≤ 1
  · refine ⟨i + (1 - i % c), by omega, by omega, ?_⟩
    have := Nat.div_add_mod i c
    have e : i + (1 - i % c) = 1 + c * (i / c) := by omega
    rw [e, Nat.add_mul_mod_self_left, Nat.mod_eq_of_lt (by omega)]
  · have hl := Nat.mod_lt i (show 0 < c by omega)
    refine ⟨i + (c + 1 - i % c), by omega, by omega, ?_⟩
    have := Nat.div_add_mod i c
    have e : i + (c + 1 - i % c) = 1 + c * (i / c + 1) := by rw [Nat.mul_add]; omega
    rw [e, Nat.add_mul_mod_self_left, Nat.mod_eq_of_lt (by omega)]

/-- **C09, partial.** With `stop_check_iter ≥ 2`: if from iteration `i0` on every check would give a verdict, the solve
ends with at most `i0 + stop_check_iter` iterations. Missing: `stop_check_iter = 1` (see the negation above). -/
theorem qp_checks_in_every_window_partial (hsc : 2 ≤ prm.stopCheckIter) (hdim : prm.scaling = true → n ≠ 0 ∧ m ≠ 0) {i0 : ℕ}
    (hv : ∀ s, chosenScaling env prm p = some s → ∀ j, i0 ≤ j →
      check env prm p s j (iterates prm p s (prepare env prm p s).1 ws j)
        (iterates prm p s (prepare env prm p s).1 ws (j + 1)) ≠ none)
    (hfuel : i0 + prm.stopCheckIter + 1 ≤ fuel) :
    ∃ sol, solveQP env prm p ws fuel = .ok sol ∧ sol.iter ≤ i0 + prm.stopCheckIter := by
  obtain ⟨s, hs⟩ := chosenScaling_some env prm p hdim
  obtain ⟨j, h1, h2, h3⟩ := window hsc i0
  rw [solveQP_eq, hs]
  obtain ⟨sol, h4, h5⟩ := solveScaled_ends (env := env) (prm := prm) (p := p) (s := s) (ws := ws) (e := j + 1) (by omega)
    (Or.inr ⟨by omega, by unfold verdict; rw [Nat.add_sub_cancel, if_pos h3]; exact hv s hs j h1⟩)
    (show j + 1 + 1 ≤ fuel by omega)
  exact ⟨sol, h4, by omega⟩

/-- **C09, partial.** ... in particular a solve whose time limit is exceeded from iteration `i0` on ends. -/
theorem qp_time_limit_ends_partial (hsc : 2 ≤ prm.stopCheckIter) (hdim : prm.scaling = true → n ≠ 0 ∧ m ≠ 0) {i0 : ℕ} {b : ℤ}
    (ht : prm.maxTime = some b) (hclock : ∀ j, i0 ≤ j → env.t0 + b < env.now j)
    (hfuel : i0 + prm.stopCheckIter + 1 ≤ fuel) :
    ∃ sol, solveQP env prm p ws fuel = .ok sol ∧ sol.iter ≤ i0 + prm.stopCheckIter := by
  refine qp_checks_in_every_window_partial hsc hdim (fun s _ j hj => ?_) hfuel
  unfold check
  split
  · simp
  · rw [ht]
    simp only
    rw [if_pos (hclock j hj)]
    simp

/-- The hypotheses are met by a clock that ticks every iteration. -/
example : ∃ (env : Env ℚ 1) (b : ℤ), ∀ j : ℕ, 5 ≤ j → env.t0 + b < env.now j :=
  ⟨{ env1 with now := fun i => i }, 4, fun j hj => by simp only [env1]; omega⟩

/-! ## C10 -/

/-- Bounds of a row that no number satisfies. -/
def TriviallyEmpty (l u : Ext F) : Prop := l = .pos ∨ u = .neg ∨ ∃ a b, l = .fin a ∧ u = .fin b ∧ b < a

/-- Trivially empty bounds are exactly the unsatisfiable ones. -/
theorem triviallyEmpty_iff {l u : Ext F} : TriviallyEmpty l u ↔ ∀ w, ¬ (lower l w ∧ upper u w) := by
  constructor
  · rintro (rfl | rfl | ⟨a, b, rfl, rfl, h⟩) w ⟨h1, h2⟩
    · exact h1
    · exact h2
    · exact absurd (le_trans h1 h2) (not_le.2 h)
  · intro h
    cases l with
    | pos => exact Or.inl rfl
    | neg =>
      cases u with
      | neg => exact Or.inr (Or.inl rfl)
      | pos => exact absurd ⟨trivial, trivial⟩ (h 0)
      | fin b => exact absurd ⟨trivial, le_rfl⟩ (h b)
    | fin a =>
      cases u with
      | neg => exact Or.inr (Or.inl rfl)
      | pos => exact absurd ⟨le_rfl, trivial⟩ (h a)
      | fin b =>
        by_cases hab : b < a
        · exact Or.inr (Or.inr ⟨a, b, rfl, rfl, hab⟩)
        · exact absurd ⟨le_rfl, not_lt.1 hab⟩ (h a)

/-- **C10.** A trivially empty row gives `PrimalInfeasible` after zero iterations when the factorisation succeeds. -/
theorem qp_empty_row_infeasible (hdim : prm.scaling = true → n ≠ 0 ∧ m ≠ 0)
    (hf : ∀ s : Scaling F n m, env.factor m (kkt prm.sigma p s (rhoVec prm p s)) ≠ none)
    {i : Fin m} (hi : TriviallyEmpty (p.l i) (p.u i)) (hfuel : 1 ≤ fuel) :
    ∃ sol, solveQP env prm p ws fuel = .ok sol ∧ sol.code = .primalInfeasible ∧ sol.iter = 0 := by
  obtain ⟨s, hs⟩ := chosenScaling_some env prm p hdim
  rw [solveQP_eq, hs]
  have hpre : (prepare env prm p s).2 = some .primalInfeasible := by
    rcases prepare_cases env prm p s with ⟨h1, -⟩ | ⟨slv, -, h2⟩
    · exact absurd h1 (hf s)
    · rw [h2]
      exact precheck_iff.2 ⟨i, emptyRow_iff.2 hi⟩
  obtain ⟨sol, h1, h2, h3⟩ := solveScaled_preset (ws := ws) hpre hfuel
  exact ⟨sol, h1, h3, h2⟩

/-- **C10.** Conversely `PrimalInfeasible` after zero iterations comes from a trivially empty row. -/
theorem qp_zero_iter_infeasible (h : solveQP env prm p ws fuel = .ok sol) (hc : sol.code = .primalInfeasible)
    (h0 : sol.iter = 0) : ∃ i, TriviallyEmpty (p.l i) (p.u i) := by
  obtain ⟨s, hs, h1⟩ := solveQP_ok h
  obtain ⟨k, r, hf, hcon⟩ := solveScaled_facts h1
  obtain ⟨hcode, hiter, -⟩ := conclude_code hcon
  rw [hc] at hcode
  rcases run_code hf with ⟨rfl, -⟩ | ⟨-, ⟨-, -, h3⟩ | ⟨rfl, -⟩ | ⟨-, k', rfl, -⟩⟩
  · cases hcode
  · obtain ⟨i, hi⟩ := precheck_iff.1 h3
    exact ⟨i, emptyRow_iff.1 hi⟩
  · cases hcode
  · omega

/-- The hypotheses are met: `2 ≤ x ≤ 1`. -/
example : ∃ sol, solveQP env1 Params.default (⟨1, 0, 1, fun _ => .fin 2, fun _ => .fin 1⟩ : Pbm ℚ 1 1) none 1 = .ok sol ∧
    sol.code = .primalInfeasible ∧ sol.iter = 0 := by
  obtain ⟨sol, h, h'⟩ := Out.test_iff (o := solveQP env1 Params.default (⟨1, 0, 1, fun _ => .fin 2, fun _ => .fin 1⟩ : Pbm ℚ 1 1) none 1)
    (f := fun sol => decide (sol.code = .primalInfeasible ∧ sol.iter = 0)) (by decide +kernel)
  exact ⟨sol, h, of_decide_eq_true h'⟩

/-! ## C11 -/

/-- **C11.** The computed scale factors are positive for all data, including zero rows and columns. -/
theorem qp_scaling_positive (hsq : SqrtPos env) {s : Scaling F n m} (hs : scale env.sqrt p = some s) :
    0 < s.c ∧ (∀ j, 0 < s.sx j) ∧ ∀ i, 0 < s.sy i := scale_pos hsq hs

/-- **C11.** Scaling has a meaning exactly for problems with at least one variable and one constraint. -/
theorem qp_scaling_defined_iff : (∃ s, scale env.sqrt p = some s) ↔ 0 < n ∧ 0 < m := by
  unfold scale
  split_ifs with h
  · simp only [reduceCtorEq, exists_false, false_iff]; omega
  · simp only [Option.some.injEq, exists_eq', true_iff]; omega

/-- **C11.** With scaling switched on (the default), a problem without constraints or without variables has undefined behaviour. -/
theorem qp_scaling_empty_undefined (hsc : prm.scaling = true) (h : n = 0 ∨ m = 0) (ws : Option ((Fin n → F) × (Fin m → F))) (fuel : ℕ) :
    solveQP env prm p ws fuel = .undef := by
  unfold solveQP solve scale
  rw [if_pos hsc, if_pos h]

/-- **C11.** Positive scaling keeps feasibility, orders objectives alike and maps KKT points to KKT points, both ways. -/
theorem qp_scaling_equivalent {s : Scaling F n m} (hs : s.Pos) (x : Fin n → F) (y : Fin m → F) :
    (Feasible (scaledPbm p s.c s.sx s.sy) x ↔ Feasible p (s.unX x)) ∧
    cost (scaledPbm p s.c s.sx s.sy) x = s.c * cost p (s.unX x) ∧
    (KKT (scaledPbm p s.c s.sx s.sy) x y ↔ KKT p (s.unX x) (s.unY y)) :=
  ⟨scaled_feasible hs x, scaled_cost s x, scaled_kkt hs x y⟩

/-- **C11.** The unscaling maps are bijections. -/
theorem qp_unscaling_bijective {s : Scaling F n m} (hs : s.Pos) :
    Function.Bijective s.unX ∧ Function.Bijective (s.unY : (Fin m → F) → _) :=
  unscale_bijective hs

/-- **C11.** The iteration with scaling runs the unscaled algorithm on the scaled problem: same matrix, penalties and
steps. -/
theorem qp_scaled_iteration {s : Scaling F n m} (hs : s.Pos) (slv : (Fin n ⊕ Fin m → F) → (Fin n ⊕ Fin m → F)) (it : It F n m) :
    rhoVec prm p s = rhoVec prm (scaledPbm p s.c s.sx s.sy) Scaling.unit ∧
    kkt prm.sigma p s (rhoVec prm p s) =
      kkt prm.sigma (scaledPbm p s.c s.sx s.sy) Scaling.unit (rhoVec prm (scaledPbm p s.c s.sx s.sy) Scaling.unit) ∧
    step prm.alpha prm.sigma p s (rhoVec prm p s) slv it =
      step prm.alpha prm.sigma (scaledPbm p s.c s.sx s.sy) Scaling.unit
        (rhoVec prm (scaledPbm p s.c s.sx s.sy) Scaling.unit) slv it :=
  scaled_iteration prm hs slv it

/-- **C11.** A warm start that is scaled and unscaled is unchanged. -/
theorem qp_warm_start_round_trip {s : Scaling F n m} (hs : s.Pos) (x : Fin n → F) (y : Fin m → F) :
    s.unX (start p s (some (x, y))).x = x ∧ s.unY (start p s (some (x, y))).y = y ∧
      s.unZ (start p s (some (x, y))).z = p.A *ᵥ x :=
  ⟨start_unX hs x y, start_unY hs x y, start_unZ hs x y⟩

/-- The scaling of a problem with a zero row, a zero column and unequal magnitudes is not trivial. -/
example : ∃ s, scale ratSqrt (⟨fun i j => if i = 0 ∧ j = 0 then 400 else 0, 0, fun i j => if i = 0 ∧ j = 0 then 9 else 0,
    fun _ => .neg, fun _ => .pos⟩ : Pbm ℚ 2 2) = some s ∧ s.c ≠ 1 ∧ s.sx 0 ≠ 1 ∧ s.sy 0 ≠ 1 ∧ s.sy 1 = 1 :=
  ⟨_, rfl, by decide +kernel⟩

/-! ## C12 -/

/-- **C12, negation.** `PolishFailed` is never returned. -/
theorem qp_never_polish_failed (h : solveQP env prm p ws fuel = .ok sol) : sol.code ≠ .polishFailed := by
  obtain ⟨s, hs, h1⟩ := solveQP_ok h
  obtain ⟨k, r, hf, hcon⟩ := solveScaled_facts h1
  obtain ⟨hcode, -, -⟩ := conclude_code hcon
  rw [hcode]
  intro hc
  rcases run_code hf with ⟨rfl, -⟩ | ⟨-, ⟨rfl, -⟩ | ⟨rfl, -⟩ | ⟨-, k', rfl, -, c, rfl, h3⟩⟩
  · cases hc
  · cases hc
  · cases hc
  · have : c = .polishFailed := hc
    subst this
    rcases check_codes h3 with ⟨h4, -⟩ | ⟨h4, -⟩ | ⟨h4, -⟩ | ⟨h4, -⟩ <;> cases h4

/-- An environment whose factorisation fails for the polish system of `lpPbm` (no active row). -/
def envNoPolish : Env ℚ 1 := { env1 with factor := fun k H => if k = 0 then none else cramer1 k H }

/-- **C12, negation.** A run that ends optimal, whose polish step fails and that returns `Optimal`. -/
theorem qp_polish_failure_reported_optimal :
    envNoPolish.factor 0 = (fun _ => none) ∧
    (∃ s y, chosenScaling envNoPolish Params.default lpPbm = some s ∧ polish envNoPolish Params.default lpPbm s y = .ok none) ∧
    ∃ sol, solveQP envNoPolish Params.default lpPbm none 10 = .ok sol ∧ sol.code = .optimal ∧
      ∃ sol', solveQP envNoPolish { Params.default with polish := false } lpPbm none 10 = .ok sol' ∧
        sol.primal 0 = sol'.primal 0 := by
  refine ⟨rfl, ?_, ?_⟩
  · obtain ⟨s, hs⟩ := chosenScaling_some envNoPolish Params.default lpPbm (fun _ => by decide)
    refine ⟨s, 0, hs, ?_⟩
    rw [polish_eq]
    have hL : activeRows envNoPolish.eps lpPbm 0 = [] := by decide +kernel
    rw [hL]
    rfl
  · obtain ⟨sol, h, h'⟩ := Out.test_iff (o := solveQP envNoPolish Params.default lpPbm none 10)
      (f := fun sol => decide (sol.code = .optimal ∧ ∃ v ∈ [sol.primal 0], (solveQP envNoPolish
        { Params.default with polish := false } lpPbm none 10).test (fun sol' => decide (v = sol'.primal 0)) = true))
        (by decide +kernel)
    obtain ⟨h1, v, hv, h2⟩ := of_decide_eq_true h'
    rw [List.mem_singleton] at hv
    subst hv
    obtain ⟨sol', h3, h4⟩ := Out.test_iff h2
    exact ⟨sol, h, h1, sol', h3, of_decide_eq_true h4⟩

/-- **C12, partial.** When polishing fails, the unpolished solution is returned unchanged. Missing: the code. -/
theorem qp_polish_failure_keeps_solution_partial {s : Scaling F n m} {k : ℕ} {r : Option Status} {it : It F n m}
    (hfail : polish env prm p s it.y = .ok none) :
    conclude env prm p s k r it = conclude env { prm with polish := false } p s k r it := by
  unfold conclude
  rw [hfail]
  split <;> simp

/-! ## C13 -/

/-- The problems agree except below the diagonal of `P`. -/
def SameUpper (p p' : Pbm F n m) : Prop :=
  (∀ i j, i ≤ j → p.P i j = p'.P i j) ∧ p.q = p'.q ∧ p.A = p'.A ∧ p.l = p'.l ∧ p.u = p'.u

/-- **C13, negation.** Two problems that agree except below the diagonal of `P` give different verdicts. -/
theorem qp_lower_triangle_matters : ∃ (env : Env ℚ 2) (prm : Params ℚ) (p p' : Pbm ℚ 2 1) (ws : (Fin 2 → ℚ) × (Fin 1 → ℚ)),
    LdltOk env ∧ SameUpper p p' ∧
    ∃ sol sol', solveQP env prm p (some ws) 10 = .ok sol ∧ solveQP env prm p' (some ws) 10 = .ok sol' ∧
      sol.code = .optimal ∧ sol'.code = .dualInfeasible := by
  refine ⟨env2, { Params.default with scaling := false }, sepPbm 0, sepPbm 1, (fun _ => 1, fun _ => 0), env2_ldlt,
    ⟨?_, rfl, rfl, rfl, rfl⟩, ?_⟩
  · intro i j hij
    fin_cases i <;> fin_cases j <;> simp_all [sepPbm]
  · obtain ⟨sol, h, h'⟩ := Out.test_iff
      (o := solveQP env2 { Params.default with scaling := false } (sepPbm 0) (some (fun _ => 1, fun _ => 0)) 10)
      (f := fun sol => decide (sol.code = .optimal)) (by decide +kernel)
    obtain ⟨sol', h2, h2'⟩ := Out.test_iff
      (o := solveQP env2 { Params.default with scaling := false } (sepPbm 1) (some (fun _ => 1, fun _ => 0)) 10)
      (f := fun sol => decide (sol.code = .dualInfeasible)) (by decide +kernel)
    exact ⟨sol, sol', h, h2, of_decide_eq_true h', of_decide_eq_true h2'⟩

/-- **C13, partial.** Without scaling and with a factorisation that reads the upper triangle only, the two problems
have the same iterates: results with equal iteration counts and no polishing have the same primal and dual. Missing:
scaling and the stopping tests read all of `P`. -/
theorem qp_lower_triangle_same_iterates_partial {p' : Pbm F n m} (hsame : SameUpper p p') (hscal : prm.scaling = false)
    (hpol : prm.polish = false) (hfac : ∀ k H H', symUpper H = symUpper H' → env.factor k H = env.factor k H')
    {fuel' : ℕ} {sol' : Sol F n m}
    (h : solveQP env prm p ws fuel = .ok sol) (h' : solveQP env prm p' ws fuel' = .ok sol') (hi : sol.iter = sol'.iter) :
    sol.primal = sol'.primal ∧ sol.dual = sol'.dual := by
  obtain ⟨s, hs, h1⟩ := solveQP_ok h
  obtain ⟨s', hs', h1'⟩ := solveQP_ok h'
  unfold chosenScaling at hs hs'
  rw [hscal] at hs hs'
  cases hs; cases hs'
  obtain ⟨k, r, -, hcon⟩ := solveScaled_facts h1
  obtain ⟨k', r', -, hcon'⟩ := solveScaled_facts h1'
  have e := (conclude_code hcon).2.1
  have e' := (conclude_code hcon').2.1
  have hk : k = k' := by omega
  subst hk
  rw [conclude_nopolish (Or.inl hpol)] at hcon hcon'
  cases hcon; cases hcon'
  obtain ⟨hP, hq, hA, hl, hu⟩ := hsame
  have hrho : rhoVec prm p Scaling.unit = rhoVec prm p' Scaling.unit := by
    funext i; simp only [rhoVec, hl, hu]
  have hH : env.factor m (kkt prm.sigma p Scaling.unit (rhoVec prm p Scaling.unit)) =
      env.factor m (kkt prm.sigma p' Scaling.unit (rhoVec prm p' Scaling.unit)) := by
    refine hfac _ _ _ ?_
    rw [hrho]
    funext a b
    match a, b with
    | .inl i, .inl j =>
      simp only [symUpper, kkt]
      split
      · rename_i hij; rw [hP i j hij]
      · rename_i hij; rw [hP j i (not_le.1 hij).le]
    | .inl i, .inr j => simp only [symUpper, kkt, hA]
    | .inr i, .inl j => simp only [symUpper, kkt, hA]
    | .inr i, .inr j => simp only [symUpper, kkt]
  have hprep : prepare env prm p Scaling.unit = prepare env prm p' Scaling.unit := by
    unfold prepare precheck
    rw [hH, hl, hu]
  have hstart : start p (Scaling.unit : Scaling F n m) ws = start p' Scaling.unit ws := by
    unfold start; rw [hA]
  have hit : iterates prm p Scaling.unit (prepare env prm p Scaling.unit).1 ws k =
      iterates prm p' Scaling.unit (prepare env prm p' Scaling.unit).1 ws k := by
    unfold iterates
    rw [hstart, hprep]
    congr 1
    funext it
    unfold step
    rw [hrho, hq, hl, hu]
  simp only [finish]
  rw [hit]
  exact ⟨rfl, rfl⟩

/-- The factorisation of `env2` reads the upper triangle only. -/
example (k : ℕ) (H H' : Matrix (Fin 2 ⊕ Fin k) (Fin 2 ⊕ Fin k) ℚ) (h : symUpper H = symUpper H') :
    env2.factor k H = env2.factor k H' := env2_upper k H H' h

/-! ## C65 -/

/-- **C65.** The polish step never reads an unwritten index; it uses exactly the rows with a multiplier beyond the
threshold of matching sign whose bound is not infinite, each once, those at the lower bound first. -/
theorem qp_polish_active_set (heps : 0 ≤ env.eps) (s : Scaling F n m) (y : Fin m → F) :
    ∃ lows ups : List (Fin m), (lows ++ ups).Nodup ∧
      (∀ i, i ∈ lows ↔ y i < -100 * env.eps ∧ p.l i ≠ .neg) ∧ (∀ i, i ∈ ups ↔ 100 * env.eps < y i ∧ p.u i ≠ .pos) ∧
      polish env prm p s y = .ok (polishWith env prm p s y lows.length (lows ++ ups)) :=
  ⟨(List.finRange m).filter (lowActive env.eps p y), (List.finRange m).filter (upActive env.eps p y),
    activeRows_nodup heps p y, fun _ => mem_lows, fun _ => mem_ups, polish_eq env prm p s y⟩

/-- **C65.** Polishing leaves the multipliers of all other rows as they are. -/
theorem qp_polish_other_rows (s : Scaling F n m) {y y' : Fin m → F} {x' : Fin n → F}
    (h : polish env prm p s y = .ok (some (x', y'))) {i : Fin m}
    (hi : ¬ (y i < -100 * env.eps ∧ p.l i ≠ .neg) ∧ ¬ (100 * env.eps < y i ∧ p.u i ≠ .pos)) : y' i = y i := by
  rw [polish_eq] at h
  unfold polishWith at h
  cases hf : env.factor (activeRows env.eps p y).length
      (polishH p s (activeRows env.eps p y) + polishReg prm.delta (activeRows env.eps p y).length) with
  | none => rw [hf] at h; simp at h
  | some slv =>
    rw [hf] at h
    simp only [Out.ok.injEq, Option.some.injEq, Prod.mk.injEq] at h
    rw [← h.2]
    refine writeDual_notMem _ _ _ ?_
    unfold activeRows
    rw [List.mem_append, mem_lows, mem_ups]
    tauto

/-- **C65.** After an `Optimal` run the rows used have finite bounds, so no infinite bound enters the reduced system. -/
theorem qp_polish_bounds_finite (hpre : precheck p = none) {y : Fin m → F} {i : Fin m} :
    (y i < -100 * env.eps ∧ p.l i ≠ .neg → ∃ a, p.l i = .fin a) ∧ (100 * env.eps < y i ∧ p.u i ≠ .pos → ∃ b, p.u i = .fin b) := by
  have hrow := precheck_none hpre i
  unfold RowOk at hrow
  constructor
  · rintro ⟨-, h⟩
    cases hl : p.l i with
    | neg => exact absurd hl h
    | pos => rw [hl] at hrow; simp [emptyRow] at hrow
    | fin a => exact ⟨a, rfl⟩
  · rintro ⟨-, h⟩
    cases hu : p.u i with
    | pos => exact absurd hu h
    | neg => rw [hu] at hrow; cases hl : p.l i <;> rw [hl] at hrow <;> simp [emptyRow] at hrow
    | fin a => exact ⟨a, rfl⟩

/-- A dual vector with one row of each kind: lower active, upper active, inactive, and large with an infinite bound. -/
example : activeRows (1 / 1000 : ℚ) (⟨0, 0, 0, fun _ => .fin 0, fun i => if i = 3 then .pos else .fin 1⟩ : Pbm ℚ 1 4)
    (fun i => if i = 0 then 2 else if i = 1 then -2 else if i = 2 then 0 else 5) = [1, 0] := by decide +kernel

end Verif.QP
