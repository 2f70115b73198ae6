import Verif.Proofs.QPRun
import Verif.Proofs.QPWitness

/-!
# Properties of the QP solver (C01 - C13, C65)

Standing assumptions, named where used: `SqrtPos` (square roots of positive numbers are positive), `LdltOk` (a
successful LDLT solves the symmetric system given by the upper triangle), `0 < rho`.
-/

set_option linter.unusedSectionVars false

namespace Verif.QP

open Matrix Verif.QPSpec

variable {F : Type*} [Field F] [LinearOrder F] [IsStrictOrderedRing F] {n m : ℕ}
  {env : Env F n} {prm : Params F} {p : Pbm F n m} {ws : Option ((Fin n → F) × (Fin m → F))} {fuel : ℕ} {sol : Sol F n m}

/-! ## C01 -/

/-- **C01.** `Optimal` without polishing certifies the KKT conditions to tolerance. No assumption on the linear
solver, on convexity or on the warm start is needed. -/
theorem qp_optimal_certificate (hsq : SqrtPos env) (hr : 0 < prm.rho) (hpol : prm.polish = false)
    (h : solveQP env prm p ws fuel = .ok sol) (hc : sol.code = .optimal) :
    ApproxKKT p prm.epsAbs prm.epsRel sol.primal sol.dual ∧ sol.objective = cost p sol.primal := by
  obtain ⟨s, hs, h1⟩ := solveQP_ok h
  obtain ⟨k, r, hf, hcon⟩ := solveScaled_facts h1
  have hpos := chosenScaling_pos hsq hs
  have hcode := conclude_code hcon
  rw [hc] at hcode
  have hr' := code_optimal hcode.1.symm
  subst hr'
  obtain ⟨it, hit, hbox, hcomp, htest⟩ := optimal_facts hpos hr hf
  refine ⟨?_, hcode.2.2⟩
  rw [conclude_nopolish (Or.inl hpol), ← hit] at hcon
  cases hcon
  obtain ⟨⟨rp, hrp, hrp'⟩, ⟨rd, hrd, hrd'⟩⟩ := optimalTest_spec htest
  exact ⟨_, rp, rd, hbox, hcomp, hrp, hrp', hrd, hrd'⟩

/-- The hypotheses are met: minimise `5e-4 x` over `[-1, 1]` with default parameters, polishing off. -/
example : ∃ sol, solveQP env1 { Params.default with polish := false } lpPbm none 10 = .ok sol ∧ sol.code = .optimal ∧
    sol.primal 0 ≠ 0 := by
  obtain ⟨sol, h, h'⟩ := Out.test_iff (o := solveQP env1 { Params.default with polish := false } lpPbm none 10)
    (f := fun sol => decide (sol.code = .optimal ∧ sol.primal 0 ≠ 0)) (by decide +kernel)
  exact ⟨sol, h, of_decide_eq_true h'⟩

/-! ## C02 -/

/-- **C02, negation.** With default parameters the polished result of an `Optimal` run violates the tolerances: for
`min 5e-4 x` over `[-1, 1]` the solver returns `x = -2500` as `Optimal`, in exact arithmetic. -/
theorem qp_polished_optimal_violates : ∃ sol, solveQP env1 Params.default lpPbm none 10 = .ok sol ∧ sol.code = .optimal ∧
    sol.primal 0 = -2500 ∧ ¬ ApproxKKT lpPbm (1 / 1000) (1 / 1000) sol.primal sol.dual := by
  obtain ⟨sol, h, h1, -, h2, -⟩ := lp_run
  refine ⟨sol, h, h1, h2, ?_⟩
  rintro ⟨z, rp, rd, hbox, -, ⟨ra, rb, rc, hra, hrb, hrc, hrp⟩, hle, -⟩
  have hA : (lpPbm.A *ᵥ sol.primal) 0 = -2500 := by
    simp [lpPbm, h2]
  have hz := hbox 0
  simp only [lpPbm, lower, upper] at hz
  have hl := hle 0
  rw [hA] at hl
  have hra' : ra ≤ 2500 := by
    rcases hra.2.2 with h | ⟨i, h⟩
    · rw [h]; norm_num
    · have : i = 0 := Subsingleton.elim _ _
      subst this
      rw [h, hA]; norm_num
  have hzabs : ∀ i, |z i| ≤ 1 := by
    intro i
    have : i = 0 := Subsingleton.elim _ _
    subst this
    exact abs_le.2 hz
  have hrb' : rb ≤ 1 := by
    rcases hrb.2.2 with h | ⟨i, h⟩
    · rw [h]; norm_num
    · rw [h]; exact hzabs i
  have hrc' : rc ≤ 1 := by
    rcases hrc.2.2 with h | ⟨i, h⟩
    · rw [h]; norm_num
    · rw [h]; exact hzabs i
  have hmax : max (max ra rb) rc ≤ 2500 := max_le (max_le hra' (by linarith)) (by linarith)
  have h5 := abs_le.1 hl
  have : rp ≤ 4 := by rw [hrp]; linarith
  linarith [hz.1, h5.1, h5.2]

/-- **C02.** Iterative refinement: with an exact solve of the perturbed system `H + E`, the residual of the unperturbed
system is multiplied by `E (H + E)⁻¹` in every pass; the correction is added to the previous solution. -/
theorem qp_refinement_residual {ι : Type*} [Fintype ι] (H E : Matrix ι ι F) (h : ι → F) (slv : (ι → F) → ι → F)
    (hslv : ∀ b, (H + E) *ᵥ slv b = b) (k : ℕ) (t : ι → F) :
    h - H *ᵥ refine H h slv k t = (fun r => E *ᵥ slv r)^[k] (h - H *ᵥ t) := by
  induction k generalizing t with
  | zero => rfl
  | succ k ih =>
    rw [refine, ih, Function.iterate_succ_apply]
    congr 1
    have := hslv (h - H *ᵥ t)
    rw [add_mulVec] at this
    rw [mulVec_add]
    calc h - (H *ᵥ t + H *ᵥ slv (h - H *ᵥ t)) = (h - H *ᵥ t) - H *ᵥ slv (h - H *ᵥ t) := by abel
      _ = (H *ᵥ slv (h - H *ᵥ t) + E *ᵥ slv (h - H *ᵥ t)) - H *ᵥ slv (h - H *ᵥ t) := by rw [this]
      _ = E *ᵥ slv (h - H *ᵥ t) := by abel

/-- The system `2 t = 6` perturbed to `3 t = b`: two passes from zero leave the residual `6 / 9`. -/
example : (fun _ : Fin 1 => (6 : ℚ)) - !![(2 : ℚ)] *ᵥ refine !![(2 : ℚ)] (fun _ => 6) (fun b i => b i / 3) 2 0 = fun _ => 6 / 9 := by
  rw [qp_refinement_residual !![(2 : ℚ)] !![1] _ _ (by
    intro b; funext i; have : i = 0 := Subsingleton.elim _ _; subst this; simp [mulVec, dotProduct]; ring)]
  funext i; have : i = 0 := Subsingleton.elim _ _; subst this
  simp [mulVec, dotProduct]; norm_num

/-- **C02, partial.** An `Optimal` run ends with an iterate that satisfies the tolerances. If polishing fails that
iterate is returned. If polishing succeeds and its refinement solved the reduced system exactly, the result satisfies
every row taken as active with equality and its dual residual comes only from multipliers below the activity
threshold. Missing for the full claim: the other rows, the signs of the new multipliers and inexact refinement are not
checked by the code (see the negation above). -/
theorem qp_polished_optimal_partial (hsq : SqrtPos env) (hr : 0 < prm.rho) (hP : p.P.IsSymm) (heps : 0 ≤ env.eps)
    (h : solveQP env prm p ws fuel = .ok sol) (hc : sol.code = .optimal) :
    ∃ s x y, Scaling.Pos s ∧ ApproxKKT p prm.epsAbs prm.epsRel (s.unX x) (s.unY y) ∧
      ((sol.primal = s.unX x ∧ sol.dual = s.unY y) ∨
       ∃ t : Fin n ⊕ Fin (activeRows env.eps p y).length → F,
        sol.primal = s.unX (fun j => t (.inl j)) ∧ (∀ i, i ∉ activeRows env.eps p y → sol.dual i = s.unY y i) ∧
        (symUpper (polishH p s (activeRows env.eps p y)) *ᵥ t =
            polishRhs p s ((List.finRange m).filter (lowActive env.eps p y)).length (activeRows env.eps p y) →
          (∀ i a, y i < -100 * env.eps → p.l i = .fin a → (p.A *ᵥ sol.primal) i = a) ∧
          (∀ i b, 100 * env.eps < y i → p.u i = .fin b → (p.A *ᵥ sol.primal) i = b) ∧
          ∀ j, |(p.P *ᵥ sol.primal) j + p.q j + (p.Aᵀ *ᵥ sol.dual) j| ≤
            100 * env.eps * ∑ i, |p.A i j| * s.sy i / s.c)) := by
  obtain ⟨s, hs, h1⟩ := solveQP_ok h
  obtain ⟨k, r, hf, hcon⟩ := solveScaled_facts h1
  have hpos := chosenScaling_pos hsq hs
  have hcode := conclude_code hcon
  rw [hc] at hcode
  have hr' := code_optimal hcode.1.symm
  subst hr'
  obtain ⟨it, hit, hbox, hcomp, htest⟩ := optimal_facts hpos hr hf
  rw [← hit] at hcon
  have hkkt : ApproxKKT p prm.epsAbs prm.epsRel (s.unX it.x) (s.unY it.y) := by
    obtain ⟨⟨rp, hrp, hrp'⟩, ⟨rd, hrd, hrd'⟩⟩ := optimalTest_spec htest
    exact ⟨_, rp, rd, hbox, hcomp, hrp, hrp', hrd, hrd'⟩
  refine ⟨s, it.x, it.y, hpos, hkkt, ?_⟩
  unfold conclude at hcon
  split at hcon
  · rw [polish_eq] at hcon
    unfold polishWith at hcon
    cases hfac : env.factor (activeRows env.eps p it.y).length
        (polishH p s (activeRows env.eps p it.y) + polishReg prm.delta (activeRows env.eps p it.y).length) with
    | none =>
      rw [hfac] at hcon
      simp only [Out.ok.injEq] at hcon
      subst hcon
      exact Or.inl ⟨rfl, rfl⟩
    | some slv =>
      right
      rw [hfac] at hcon
      simp only [Out.ok.injEq] at hcon
      subst hcon
      refine ⟨_, rfl, ?_, ?_⟩
      · intro i hi
        simp only [finish, Scaling.unY]
        rw [writeDual_notMem _ _ _ hi]
      · intro hsolve
        obtain ⟨e1, e2, e3⟩ := polish_exact hP hpos heps rfl hsolve
        refine ⟨e1, e2, fun j => ?_⟩
        refine le_trans (le_of_eq (congrArg abs (e3 j))) ?_
        refine le_trans (Finset.abs_sum_le_sum_abs _ _) ?_
        rw [Finset.mul_sum]
        have hb : ∀ i, i ∉ activeRows env.eps p it.y → |p.A i j * (s.sy i * it.y i / s.c)| ≤
            100 * env.eps * (|p.A i j| * s.sy i / s.c) := by
          intro i hi
          have hy : |it.y i| ≤ 100 * env.eps := by
            rw [abs_le]
            unfold activeRows at hi
            rw [List.mem_append, mem_lows, mem_ups] at hi
            push Not at hi
            have hc1 := (hcomp i).1
            have hc2 := (hcomp i).2
            have hscale : 0 < s.sy i / s.c := div_pos (hpos.2.2 i) hpos.1
            have hun : s.unY it.y i = (s.sy i / s.c) * it.y i := by simp only [Scaling.unY]; ring
            rw [hun] at hc1 hc2
            constructor
            · by_contra hcon
              have hlt := not_le.1 hcon
              have h1 := hi.1 (by linarith)
              have h2 := hc2 (mul_neg_of_pos_of_neg hscale (by linarith))
              rw [h1] at h2; cases h2
            · by_contra hcon
              have hlt := not_le.1 hcon
              have h1 := hi.2 hlt
              have h2 := hc1 (mul_pos hscale (by linarith))
              rw [h1] at h2; cases h2
          rw [abs_mul, abs_div, abs_mul, abs_of_pos (hpos.2.2 i), abs_of_pos hpos.1]
          have : 0 ≤ |p.A i j| * s.sy i / s.c := div_nonneg (mul_nonneg (abs_nonneg _) (hpos.2.2 i).le) hpos.1.le
          calc |p.A i j| * (s.sy i * |it.y i| / s.c) = |it.y i| * (|p.A i j| * s.sy i / s.c) := by ring
            _ ≤ _ := mul_le_mul_of_nonneg_right hy this
        refine le_trans (Finset.sum_le_sum fun i hi => hb i (Finset.mem_filter.1 hi).2) ?_
        refine Finset.sum_le_sum_of_subset_of_nonneg (Finset.filter_subset _ _) fun i _ _ => ?_
        exact mul_nonneg (mul_nonneg (by norm_num) heps)
          (div_nonneg (mul_nonneg (abs_nonneg _) (hpos.2.2 i).le) hpos.1.le)
  · simp only [Out.ok.injEq] at hcon
    subst hcon
    exact Or.inl ⟨rfl, rfl⟩

/-- The hypotheses are met by the default run of the negation (`env1.eps > 0`, `P = 0`). -/
example : ∃ sol, solveQP env1 Params.default lpPbm none 10 = .ok sol ∧ sol.code = .optimal ∧ lpPbm.P.IsSymm ∧ 0 ≤ env1.eps := by
  obtain ⟨sol, h, h1, -⟩ := lp_run
  exact ⟨sol, h, h1, by simp [lpPbm], by decide +kernel⟩

/-! ## C03 -/

/-- **C03.** For a convex problem an `Optimal` result without polishing is suboptimal by at most
`rd * |w - x|_1 + rp * |y|_1` against every feasible `w`, where `rp`, `rd` are the tolerance bounds. -/
theorem qp_optimal_near_minimiser (hsq : SqrtPos env) (hr : 0 < prm.rho) (hpol : prm.polish = false) (hP : Lin.PSD p.P)
    (h : solveQP env prm p ws fuel = .ok sol) (hc : sol.code = .optimal) :
    ∃ z rp rd, Tol prm.epsAbs prm.epsRel (p.A *ᵥ sol.primal) z z rp ∧ InBox p z ∧
      Tol prm.epsAbs prm.epsRel (p.P *ᵥ sol.primal) p.q (p.Aᵀ *ᵥ sol.dual) rd ∧
      ∀ w, Feasible p w → cost p sol.primal ≤ cost p w + rd * ∑ j, |w j - sol.primal j| + rp * ∑ i, |sol.dual i| := by
  obtain ⟨⟨z, rp, rd, hz, hcomp, h1, h2, h3, h4⟩, -⟩ := qp_optimal_certificate hsq hr hpol h hc
  refine ⟨z, rp, rd, h1, hz, h3, fun w hw => ?_⟩
  have := gap_bound hP hcomp h2 h4 hw
  linarith

/-- **C03, zero residual.** If the tolerances are zero an `Optimal` result is a global minimiser. -/
theorem qp_optimal_exact_minimiser (hsq : SqrtPos env) (hr : 0 < prm.rho) (hpol : prm.polish = false) (hP : Lin.PSD p.P)
    (h0 : prm.epsAbs = 0) (h0' : prm.epsRel = 0)
    (h : solveQP env prm p ws fuel = .ok sol) (hc : sol.code = .optimal) : Minimiser p sol.primal := by
  obtain ⟨⟨z, rp, rd, hz, hcomp, ⟨_, _, _, _, _, _, h1⟩, h2, ⟨_, _, _, _, _, _, h3⟩, h4⟩, -⟩ :=
    qp_optimal_certificate hsq hr hpol h hc
  rw [h0, h0', zero_mul, add_zero] at h1 h3
  subst h1 h3
  have e : p.A *ᵥ sol.primal = z := by
    funext i
    have := h2 i
    exact sub_eq_zero.1 (abs_eq_zero.1 (le_antisymm this (abs_nonneg _)))
  refine kkt_minimiser (y := sol.dual) hP ⟨?_, ?_, ?_⟩
  · unfold Feasible; rw [e]; exact hz
  · funext j
    exact abs_eq_zero.1 (le_antisymm (h4 j) (abs_nonneg _))
  · rw [e]; exact hcomp

/-- The hypotheses are met: `P = 0`, and zero tolerances with an exact warm start end with `Optimal` (C04). -/
example : ∃ sol, solveQP env1 { Params.default with polish := false, epsAbs := 0, epsRel := 0 } lpPbm
      (some (fun _ => -1, fun _ => -1 / 2000)) 10 = .ok sol ∧ sol.code = .optimal ∧ Lin.PSD lpPbm.P := by
  obtain ⟨sol, h, h'⟩ := Out.test_iff (o := solveQP env1 { Params.default with polish := false, epsAbs := 0, epsRel := 0 }
      lpPbm (some (fun _ => -1, fun _ => -1 / 2000)) 10)
    (f := fun sol => decide (sol.code = .optimal)) (by decide +kernel)
  exact ⟨sol, h, of_decide_eq_true h', by constructor <;> simp [lpPbm]⟩

/-! ## C04 -/

/-- **C04.** Started from an exact KKT pair of a convex problem every iterate is that pair, whatever the scaling. -/
theorem qp_warm_start_stays (hl : LdltOk env) (hP : Lin.PSD p.P) (hsig : 0 < prm.sigma) (hr : 0 < prm.rho)
    {s : Scaling F n m} (hs : s.Pos) {slv : (Fin n ⊕ Fin m → F) → (Fin n ⊕ Fin m → F)}
    (hf : env.factor m (kkt prm.sigma p s (rhoVec prm p s)) = some slv)
    {x : Fin n → F} {y : Fin m → F} (h : KKT p x y) (i : ℕ) :
    s.unX (iterates prm p s slv (some (x, y)) i).x = x ∧ s.unY (iterates prm p s slv (some (x, y)) i).y = y ∧
      s.unZ (iterates prm p s slv (some (x, y)) i).z = p.A *ᵥ x := by
  have hfix : iterates prm p s slv (some (x, y)) i = start p s (some (x, y)) := by
    induction i with
    | zero => rfl
    | succ i ih =>
      rw [iterates_succ, ih]
      exact step_fix hP hs hsig (fun _ => rhoOf_pos hr _ _) (hl _ _ _ hf) h
  rw [hfix]
  exact ⟨start_unX hs x y, start_unY hs x y, start_unZ hs x y⟩

/-- **C04.** ... and `solve_qp` returns exactly the pair, as `Optimal`, at its first stopping check. -/
theorem qp_warm_start_exact (hsq : SqrtPos env) (hl : LdltOk env) (hP : Lin.PSD p.P) (hsig : 0 < prm.sigma)
    (hr : 0 < prm.rho) (hpol : prm.polish = false) (hea : 0 ≤ prm.epsAbs) (her : 0 ≤ prm.epsRel)
    (hsc : 2 ≤ prm.stopCheckIter) (hmax : ∀ e, prm.maxIter = some e → 2 ≤ e)
    (hdim : prm.scaling = true → n ≠ 0 ∧ m ≠ 0)
    (hf : ∀ s : Scaling F n m, env.factor m (kkt prm.sigma p s (rhoVec prm p s)) ≠ none)
    {x : Fin n → F} {y : Fin m → F} (h : KKT p x y) (hfuel : 3 ≤ fuel) :
    solveQP env prm p (some (x, y)) fuel = .ok ⟨.optimal, 2, x, y, cost p x⟩ := by
  obtain ⟨s, hs⟩ := chosenScaling_some env prm p hdim
  have hpos := chosenScaling_pos hsq hs
  obtain ⟨slv, hslv⟩ := Option.ne_none_iff_exists'.1 (hf s)
  have hprep : prepare env prm p s = (slv, none) := by
    rcases prepare_cases env prm p s with ⟨h1, -⟩ | ⟨slv', h1, h2⟩
    · rw [hslv] at h1; cases h1
    · rw [hslv] at h1; cases h1
      rw [h2, precheck_of_feasible h.1]
  have hst := qp_warm_start_stays hl hP hsig hr hpos hslv h
  have hverd : verdict env prm p s (iterates prm p s slv (some (x, y))) 1 = some .optimal := by
    have h1 : 1 % prm.stopCheckIter = 1 := Nat.mod_eq_of_lt (by omega)
    unfold verdict check checkStopping
    rw [if_pos h1]
    have : optimalTest prm p (s.unX (iterates prm p s slv (some (x, y)) (1 + 1)).x)
        (s.unY (iterates prm p s slv (some (x, y)) (1 + 1)).y) (s.unZ (iterates prm p s slv (some (x, y)) (1 + 1)).z) = true := by
      obtain ⟨e1, e2, e3⟩ := hst 2
      rw [e1, e2, e3]
      unfold optimalTest
      have h2 : p.P *ᵥ x + (p.q + p.Aᵀ *ᵥ y) = 0 := by rw [← add_assoc]; exact h.2.1
      rw [sub_self, h2, norm_zero, norm_zero]
      simp only [Bool.and_eq_true, decide_eq_true_eq]
      exact ⟨add_nonneg hea (mul_nonneg her (le_trans (norm_nonneg _) (le_max_right _ _))),
        add_nonneg hea (mul_nonneg her (le_trans (norm_nonneg _) (le_max_right _ _)))⟩
    rw [this]; rfl
  have hverd0 : verdict env prm p s (iterates prm p s slv (some (x, y))) 0 = none := by
    unfold verdict
    rw [if_neg (by simp)]
  have hloop : loop env prm p s (step prm.alpha prm.sigma p s (rhoVec prm p s) (prepare env prm p s).1) fuel 0
        (prepare env prm p s).2 (iterates prm p s (prepare env prm p s).1 (some (x, y)) 0) =
          .ok (2, some .optimal, iterates prm p s (prepare env prm p s).1 (some (x, y)) 2) := by
    rw [hprep]
    obtain ⟨f, rfl⟩ : ∃ f, fuel = f + 3 := ⟨fuel - 3, by omega⟩
    have m0 : prm.maxIter ≠ some 0 := fun h => by have := hmax 0 h; omega
    have m1 : prm.maxIter ≠ some 1 := fun h => by have := hmax 1 h; omega
    rw [loop, if_pos ⟨m0, rfl⟩, if_neg (by omega), ← iterates_succ]
    unfold verdict at hverd0 hverd
    rw [hverd0, loop, if_pos ⟨m1, rfl⟩, if_neg (by omega), ← iterates_succ]
    rw [show (0 + 1) = 1 from rfl]
    rw [hverd, loop, if_neg (by simp)]
  rw [solveQP_eq, hs]
  simp only
  rw [solveScaled_of_loop hloop, conclude_nopolish (Or.inl hpol), hprep]
  obtain ⟨e1, e2, -⟩ := hst 2
  have hfin := conclude_nopolish (env := env) (p := p) (s := s) (k := 2) (r := some .optimal) (prm := prm)
    (it := iterates prm p s slv (some (x, y)) 2) (Or.inl hpol)
  have hobj := (conclude_code hfin).2.2
  simp only [finish] at hobj ⊢
  rw [hobj, e1, e2]
  rfl

/-- The hypotheses are met: minimise `5e-4 x` over `[-1, 1]`, solution `x = -1` with multiplier `-5e-4`. -/
example : KKT lpPbm (fun _ => -1) (fun _ => -1 / 2000) ∧ Lin.PSD lpPbm.P ∧ SqrtPos env1 ∧ LdltOk env1 := by
  refine ⟨⟨?_, ?_, ?_⟩, by constructor <;> simp [lpPbm], env1_sqrt, env1_ldlt⟩
  · intro i; simp [lpPbm, lower, upper]
  · funext j; norm_num [lpPbm, Matrix.mulVec, dotProduct]
  · intro i; simp [lpPbm]

/-- ... and the factorisation of `env1` succeeds for every scaling. -/
example (s : Scaling ℚ 1 1) : env1.factor 1 (kkt Params.default.sigma lpPbm s (rhoVec Params.default lpPbm s)) ≠ none := by
  have h : rhoVec Params.default lpPbm s 0 > 0 := rhoOf_pos (by norm_num [Params.default]) _ _
  generalize rhoVec Params.default lpPbm s = r at h ⊢
  simp only [env1, cramer1, kkt, lpPbm]
  rw [if_neg]
  · simp
  · simp [Params.default]
    have : (0 : ℚ) < (r 0)⁻¹ := inv_pos.2 h
    have h2 := mul_self_nonneg (s.sy 0 * s.sx 0)
    nlinarith

/-! ## C05 -/

/-- **C05.** A stationary iterate is an exact KKT pair, for every scaling and every relaxation `alpha ≠ 0`. -/
theorem qp_stationary_is_kkt (hl : LdltOk env) (hP : p.P.IsSymm) (ha : prm.alpha ≠ 0) (hr : 0 < prm.rho)
    {s : Scaling F n m} (hs : s.Pos) {slv : (Fin n ⊕ Fin m → F) → (Fin n ⊕ Fin m → F)}
    (hf : env.factor m (kkt prm.sigma p s (rhoVec prm p s)) = some slv) (hpre : precheck p = none)
    {it : It F n m} (h : step prm.alpha prm.sigma p s (rhoVec prm p s) slv it = it) :
    KKT p (s.unX it.x) (s.unY it.y) :=
  fix_kkt hP hs ha (precheck_none hpre) (fun _ => rhoOf_pos hr _ _) (hl _ _ _ hf) h

/-- **C05.** ... hence a global minimiser if the problem is convex. -/
theorem qp_stationary_is_minimiser (hl : LdltOk env) (hP : Lin.PSD p.P) (ha : prm.alpha ≠ 0) (hr : 0 < prm.rho)
    {s : Scaling F n m} (hs : s.Pos) {slv : (Fin n ⊕ Fin m → F) → (Fin n ⊕ Fin m → F)}
    (hf : env.factor m (kkt prm.sigma p s (rhoVec prm p s)) = some slv) (hpre : precheck p = none)
    {it : It F n m} (h : step prm.alpha prm.sigma p s (rhoVec prm p s) slv it = it) :
    Minimiser p (s.unX it.x) :=
  kkt_minimiser hP (fix_kkt hP.1 hs ha (precheck_none hpre) (fun _ => rhoOf_pos hr _ _) (hl _ _ _ hf) h)

/-- A non-trivial stationary iterate exists: the scaled solution of the example of C04. -/
example {slv : (Fin 1 ⊕ Fin 1 → ℚ) → (Fin 1 ⊕ Fin 1 → ℚ)}
    (hf : env1.factor 1 (kkt Params.default.sigma lpPbm Scaling.unit (rhoVec Params.default lpPbm Scaling.unit)) = some slv) :
    step Params.default.alpha Params.default.sigma lpPbm Scaling.unit (rhoVec Params.default lpPbm Scaling.unit) slv
      (start lpPbm Scaling.unit (some (fun _ => -1, fun _ => -1 / 2000))) =
      start lpPbm Scaling.unit (some (fun _ => -1, fun _ => -1 / 2000)) := by
  refine step_fix (by constructor <;> simp [lpPbm]) Scaling.unit_pos (by norm_num [Params.default])
    (fun _ => rhoOf_pos (by norm_num [Params.default]) _ _) (env1_ldlt _ _ _ hf) ⟨?_, ?_, ?_⟩
  · intro i; simp [lpPbm, lower, upper]
  · funext j; norm_num [lpPbm, Matrix.mulVec, dotProduct]
  · intro i; simp [lpPbm]

end Verif.QP
