import Verif.Proofs.QPFlat
import Verif.Props.QPConv
import Verif.Props.QPErrorBound
import Verif.Props.QPVerdicts

/-!
# Verdicts with small tolerances (C112)

C06 and C07 say that `PrimalInfeasible` and `DualInfeasible` can be wrong. Here: for a program whose solutions (with their multipliers) exist and are
bounded, `PrimalInfeasible` is not reported once the tolerance is below a threshold; `DualInfeasible` is then reported only if the iterate has not moved.
That this happens, also for strictly convex programs, is a theorem with a witness.
-/

set_option linter.unusedSectionVars false

namespace Verif.QP

open Matrix Verif.QPSpec

variable {F : Type*} [Field F] [LinearOrder F] [IsStrictOrderedRing F] {n m : ℕ} {p : Pbm F n m}

/-- The solutions are bounded. -/
def BoundedSolutions (p : Pbm F n m) : Prop := ∃ R : F, ∀ x y, KKT p x y → ∀ j, |x j| ≤ R

/-- The multipliers are bounded. -/
def BoundedMultipliers (p : Pbm F n m) : Prop := ∃ R : F, ∀ x y, KKT p x y → ∀ i, |y i| ≤ R

/-- A point that satisfies the rows with equal bounds and all others strictly. -/
def StrictPoint (p : Pbm F n m) (x : Fin n → F) : Prop :=
  ∀ i, (p.l i = .fin ((p.A *ᵥ x) i) ∧ p.u i = .fin ((p.A *ᵥ x) i)) ∨
    ((p.l i = .neg ∨ ∃ a, p.l i = .fin a ∧ a < (p.A *ᵥ x) i) ∧ (p.u i = .pos ∨ ∃ a, p.u i = .fin a ∧ (p.A *ᵥ x) i < a))

/-- The rows with equal bounds are independent. -/
def IndependentEqualities (p : Pbm F n m) : Prop := ∀ d : Fin m → F, p.Aᵀ *ᵥ d = 0 → (∀ i, p.l i ≠ p.u i → d i = 0) → d = 0

theorem flatDir_bounded (hP : p.P.IsSymm) {x : Fin n → F} {y : Fin m → F} (h : KKT p x y) (hb : BoundedSolutions p) {d : Fin n → F}
    (hd : FlatDir p d) : d = 0 := by
  obtain ⟨R, hR⟩ := hb
  exact bounded_no_line fun t ht => hR _ _ (flatDir_kkt hP h hd ht)

theorem flatMult_bounded {x : Fin n → F} {y : Fin m → F} (h : KKT p x y) (hb : BoundedMultipliers p) {d : Fin m → F}
    (hd : FlatMult p d) : d = 0 := by
  obtain ⟨R, hR⟩ := hb
  exact bounded_no_line fun t ht => hR _ _ (flatMult_kkt h hd ht)

/-- With a strict point a flat direction of the multipliers does not touch the rows with different bounds. -/
theorem flatMult_strict_row {x : Fin n → F} (hx : StrictPoint p x) {d : Fin m → F} (hd : FlatMult p d) {i : Fin m} (hne : p.l i ≠ p.u i) : d i = 0 := by
  obtain ⟨d1, d2, d3⟩ := hd
  have h0 : ∑ i, d i * (p.A *ᵥ x) i = 0 := by
    have : ∑ i, d i * (p.A *ᵥ x) i = d ⬝ᵥ p.A *ᵥ x := rfl
    rw [this, dotProduct_mulVec, ← mulVec_transpose, d1, zero_dotProduct]
  let g : Fin m → F := fun i => (match p.u i with | .fin b => b * max 0 (d i) | _ => 0) + (match p.l i with | .fin a => a * min 0 (d i) | _ => 0)
  have hg : ∀ i, 0 ≤ g i - d i * (p.A *ᵥ x) i ∧ (p.l i ≠ p.u i → g i - d i * (p.A *ᵥ x) i = 0 → d i = 0) := by
    intro i
    rcases hx i with ⟨hl, hu⟩ | ⟨hl, hu⟩
    · have e : g i = (p.A *ᵥ x) i * d i := by
        simp only [g, hl, hu]
        rw [← mul_add, max_add_min, zero_add]
      rw [e, mul_comm, sub_self]
      exact ⟨le_rfl, fun h => absurd (hl.trans hu.symm) h⟩
    · rcases lt_trichotomy (d i) 0 with hi | hi | hi
      · rcases hl with hl | ⟨a, hl, ha⟩
        · exact absurd ((d3 i).2 hl) (not_le.2 hi)
        · have e : g i = a * d i := by
            simp only [g, hl, max_eq_left hi.le, min_eq_right hi.le, mul_zero]
            cases p.u i <;> simp
          rw [e]
          have : 0 < a * d i - d i * (p.A *ᵥ x) i := by nlinarith
          exact ⟨this.le, fun _ h => absurd h this.ne'⟩
      · have e : g i = 0 := by
          simp only [g, hi, max_self, min_self, mul_zero]
          cases p.u i <;> cases p.l i <;> simp
        rw [e, hi]
        exact ⟨by simp, fun _ _ => rfl⟩
      · rcases hu with hu | ⟨a, hu, ha⟩
        · exact absurd ((d3 i).1 hu) (not_le.2 hi)
        · have e : g i = a * d i := by
            simp only [g, hu, max_eq_right hi.le, min_eq_left hi.le, mul_zero]
            cases p.l i <;> simp
          rw [e]
          have : 0 < a * d i - d i * (p.A *ᵥ x) i := by nlinarith
          exact ⟨this.le, fun _ h => absurd h this.ne'⟩
  have hsum : ∑ i, (g i - d i * (p.A *ᵥ x) i) = 0 := le_antisymm (by
    rw [Finset.sum_sub_distrib, h0, sub_zero]; exact d2) (Finset.sum_nonneg fun i _ => (hg i).1)
  exact (hg i).2 hne ((Finset.sum_eq_zero_iff_of_nonneg fun i _ => (hg i).1).1 hsum i (Finset.mem_univ i))

/-- A strict point and independent equalities leave no flat direction of the multipliers. -/
theorem flatMult_strict {x : Fin n → F} (hx : StrictPoint p x) (hi : IndependentEqualities p) {d : Fin m → F} (hd : FlatMult p d) : d = 0 :=
  hi d hd.1 fun _ hne => flatMult_strict_row hx hd hne

theorem StrictPoint.feasible {x : Fin n → F} (hx : StrictPoint p x) : Feasible p x := by
  intro i
  rcases hx i with ⟨hl, hu⟩ | ⟨hl, hu⟩
  · rw [hl, hu]; exact ⟨le_rfl, le_rfl⟩
  · constructor
    · rcases hl with hl | ⟨a, hl, ha⟩ <;> rw [hl]
      · trivial
      · exact ha.le
    · rcases hu with hu | ⟨a, hu, ha⟩ <;> rw [hu]
      · trivial
      · exact ha.le

/-! ### Verdicts -/

theorem threshold_primal (hx : ∃ x, Feasible p x) (hflat : ∀ d, FlatMult p d → d = 0) : ∃ e0 : F, 0 < e0 ∧
    ∀ (env : Env F n) (prm : Params F) (ws : Option ((Fin n → F) × (Fin m → F))) (fuel : ℕ) (sol : Sol F n m), prm.epsPrimalInf ≤ e0 →
      solveQP env prm p ws fuel = .ok sol → sol.code ≠ .primalInfeasible := by
  obtain ⟨e0, he0, h⟩ := farkas_margin hflat
  obtain ⟨x, hx⟩ := hx
  refine ⟨e0, he0, fun env prm ws fuel sol he hsol hc => ?_⟩
  rcases le_total prm.epsPrimalInf 0 with h0 | h0
  · exact qp_primal_infeasible_zero_tol h0 hsol hc x hx
  · rcases qp_primal_infeasible_partial h0 hsol hc with ⟨-, h1⟩ | ⟨d, r, h1, -⟩
    · exact h1 x hx
    · exact h _ d h0 he h1

/-- **C112, `PrimalInfeasible`.** If the program has a solution and its multipliers are bounded, there is a threshold for the tolerance below which the
solver never reports `PrimalInfeasible`, whatever the other parameters, the start, the factorisation and the clock. -/
theorem qp_threshold_primal {x : Fin n → F} {y : Fin m → F} (hk : KKT p x y) (hb : BoundedMultipliers p) : ∃ e0 : F, 0 < e0 ∧
    ∀ (env : Env F n) (prm : Params F) (ws : Option ((Fin n → F) × (Fin m → F))) (fuel : ℕ) (sol : Sol F n m), prm.epsPrimalInf ≤ e0 →
      solveQP env prm p ws fuel = .ok sol → sol.code ≠ .primalInfeasible :=
  threshold_primal ⟨x, hk.1⟩ fun _ hd => flatMult_bounded hk hb hd

/-- **C112, `PrimalInfeasible`.** The same for a program with a strict point and independent equality rows, solvable or not, convex or not. -/
theorem qp_threshold_strict {x : Fin n → F} (hx : StrictPoint p x) (hi : IndependentEqualities p) : ∃ e0 : F, 0 < e0 ∧
    ∀ (env : Env F n) (prm : Params F) (ws : Option ((Fin n → F) × (Fin m → F))) (fuel : ℕ) (sol : Sol F n m), prm.epsPrimalInf ≤ e0 →
      solveQP env prm p ws fuel = .ok sol → sol.code ≠ .primalInfeasible :=
  threshold_primal ⟨x, hx.feasible⟩ fun _ hd => flatMult_strict hx hi hd

/-- A `DualInfeasible` verdict: the test passed at the last two iterates. -/
theorem dual_verdict {env : Env F n} {prm : Params F} {ws : Option ((Fin n → F) × (Fin m → F))} {fuel : ℕ} {sol : Sol F n m}
    (h : solveQP env prm p ws fuel = .ok sol) (hc : sol.code = .dualInfeasible) : ∃ s k, chosenScaling env prm p = some s ∧ sol.iter = k + 1 ∧
      dualInfTest prm p ((userIterate env prm p s ws (k + 1)).x - (userIterate env prm p s ws k).x) = true := by
  obtain ⟨s, hs, h1⟩ := solveQP_ok h
  obtain ⟨k, r, hf, hcon⟩ := solveScaled_facts h1
  have hcode := conclude_code hcon
  rw [hc] at hcode
  rcases run_code hf with ⟨h2, -⟩ | ⟨-, ⟨h2, -⟩ | ⟨h2, -⟩ | ⟨-, k', hk', -, c, h2, h3⟩⟩
  · rw [h2] at hcode; cases hcode.1
  · rw [h2] at hcode; cases hcode.1
  · rw [h2] at hcode; cases hcode.1
  · rw [h2] at hcode
    have : c = .dualInfeasible := hcode.1.symm
    subst this
    rcases check_codes h3 with ⟨h4, -⟩ | ⟨h4, -⟩ | ⟨-, h4⟩ | ⟨h4, -⟩
    · cases h4
    · cases h4
    · refine ⟨s, k', hs, by rw [hcode.2.1, hk'], ?_⟩
      have : s.unX ((iterates prm p s (prepare env prm p s).1 ws (k' + 1)).x - (iterates prm p s (prepare env prm p s).1 ws k').x)
          = (userIterate env prm p s ws (k' + 1)).x - (userIterate env prm p s ws k').x := by
        funext i; simp only [userIterate, Scaling.unX, Pi.sub_apply]; ring
      rw [← this]
      exact h4
    · cases h4

theorem threshold_dual (hflat : ∀ d, FlatDir p d → d = 0) : ∃ e0 : F, 0 < e0 ∧
    ∀ (env : Env F n) (prm : Params F) (ws : Option ((Fin n → F) × (Fin m → F))) (fuel : ℕ) (sol : Sol F n m), 0 ≤ prm.epsDualInf → prm.epsDualInf ≤ e0 →
      solveQP env prm p ws fuel = .ok sol → sol.code = .dualInfeasible →
      (∃ s k, chosenScaling env prm p = some s ∧ sol.iter = k + 1 ∧ (userIterate env prm p s ws (k + 1)).x = (userIterate env prm p s ws k).x) ∧
      ∀ i, p.l i = .neg ∨ p.u i = .pos := by
  obtain ⟨e0, he0, h⟩ := recession_margin hflat
  refine ⟨e0, he0, fun env prm ws fuel sol h0 he hsol hc => ?_⟩
  obtain ⟨s, k, hs, hk, ht⟩ := dual_verdict hsol hc
  have hz := h _ _ he (dualInfTest_spec h0 ht)
  refine ⟨⟨s, k, hs, hk, sub_eq_zero.1 hz⟩, fun i => ?_⟩
  rw [hz] at ht
  unfold dualInfTest at ht
  simp only [Bool.and_eq_true, List.all_eq_true] at ht
  have hr := ht.2 i (List.mem_finRange i)
  have hn : norm (0 : Fin n → F) = 0 := le_antisymm (IsMaxNorm.le (norm_isMaxNorm _) le_rfl fun i => by simp) (norm_nonneg _)
  rw [hn, mulVec_zero] at hr
  by_contra hcon
  rw [not_or] at hcon
  cases hl : p.l i <;> cases hu : p.u i <;> simp_all [dualRow]

/-- **C112, `DualInfeasible`, partial.** If the program has a solution and the solutions are bounded, then below a threshold for the tolerance
`DualInfeasible` is reported only when the iterate did not move in the last iteration, and never if some row has two finite bounds.
Missing: that it is never reported. The code does report it for a strictly convex program, see `qp_dual_infeasible_strictly_convex`. -/
theorem qp_threshold_dual_partial (hP : p.P.IsSymm) {x : Fin n → F} {y : Fin m → F} (hk : KKT p x y) (hb : BoundedSolutions p) : ∃ e0 : F, 0 < e0 ∧
    ∀ (env : Env F n) (prm : Params F) (ws : Option ((Fin n → F) × (Fin m → F))) (fuel : ℕ) (sol : Sol F n m), 0 ≤ prm.epsDualInf → prm.epsDualInf ≤ e0 →
      solveQP env prm p ws fuel = .ok sol → sol.code = .dualInfeasible →
      (∃ s k, chosenScaling env prm p = some s ∧ sol.iter = k + 1 ∧ (userIterate env prm p s ws (k + 1)).x = (userIterate env prm p s ws k).x) ∧
      ∀ i, p.l i = .neg ∨ p.u i = .pos :=
  threshold_dual fun _ hd => flatDir_bounded hP hk hb hd

/-- **C112, `DualInfeasible`, partial.** The same for strictly convex programs, solvable or not. -/
theorem qp_threshold_convex_partial (hP : ∀ d : Fin n → F, d ≠ 0 → 0 < d ⬝ᵥ p.P *ᵥ d) : ∃ e0 : F, 0 < e0 ∧
    ∀ (env : Env F n) (prm : Params F) (ws : Option ((Fin n → F) × (Fin m → F))) (fuel : ℕ) (sol : Sol F n m), 0 ≤ prm.epsDualInf → prm.epsDualInf ≤ e0 →
      solveQP env prm p ws fuel = .ok sol → sol.code = .dualInfeasible →
      (∃ s k, chosenScaling env prm p = some s ∧ sol.iter = k + 1 ∧ (userIterate env prm p s ws (k + 1)).x = (userIterate env prm p s ws k).x) ∧
      ∀ i, p.l i = .neg ∨ p.u i = .pos :=
  threshold_dual fun d hd => by
    by_contra h0
    have := hP d h0
    rw [hd.1, dotProduct_zero] at this
    exact lt_irrefl _ this

/-! ### Solving to any accuracy -/

/-- **C112, together.** A convex program with a solution, bounded solutions and multipliers, and a row with two finite bounds: there are a constant and a
threshold, for this program, such that with tolerances below the threshold and without limits the solver returns, says `Optimal`, and answers within the
constant times the tolerance of a minimiser and its multipliers. -/
theorem qp_small_tolerances_solve [Archimedean F] (hP : Lin.PSD p.P) {x : Fin n → F} {y : Fin m → F} (hk : KKT p x y) (hx : BoundedSolutions p)
    (hy : BoundedMultipliers p) {i : Fin m} (hl : p.l i ≠ .neg) (hu : p.u i ≠ .pos) : ∃ C e0 : F, 0 ≤ C ∧ 0 < e0 ∧
    ∀ (env : Env F n) (prm : Params F) (ws : Option ((Fin n → F) × (Fin m → F))), SqrtPos env → LdltOk env → (prm.scaling = true → n ≠ 0 ∧ m ≠ 0) →
      (∀ s : Scaling F n m, s.Pos → env.factor m (kkt prm.sigma p s (rhoVec prm p s)) ≠ none) →
      0 < prm.alpha → prm.alpha < 2 → 0 < prm.sigma → 0 < prm.rho → 2 ≤ prm.stopCheckIter → prm.polish = false →
      prm.maxIter = none → prm.maxTime = none → 0 < prm.epsAbs → prm.epsAbs ≤ e0 → prm.epsRel = 0 → prm.epsPrimalInf ≤ e0 →
      0 ≤ prm.epsDualInf → prm.epsDualInf ≤ e0 →
      ∃ N, ∀ fuel, N ≤ fuel → ∃ sol, solveQP env prm p ws fuel = .ok sol ∧ sol.code = .optimal ∧
        ∃ x y, Minimiser p x ∧ KKT p x y ∧ (∀ j, |x j - sol.primal j| ≤ C * prm.epsAbs) ∧ ∀ i, |y i - sol.dual i| ≤ C * prm.epsAbs := by
  obtain ⟨e1, h1, k1⟩ := qp_threshold_primal hk hy
  obtain ⟨e2, h2, k2⟩ := qp_threshold_dual_partial hP.1 hk hx
  obtain ⟨C, hC, hb⟩ := qp_error_bound_abs p.P p.A
  obtain ⟨e3, h3, k3⟩ := hb p.q p.l p.u
  refine ⟨C, min e1 (min e2 e3), hC, lt_min h1 (lt_min h2 h3), fun env prm ws hsq hld hdim hf ha ha' hs hr hsc hpol hmi hmt hea hle her hpi hd0 hdi => ?_⟩
  obtain ⟨N, hN⟩ := qp_terminates (ws := ws) hsq hld hP ha ha' hs hr hea her.ge hsc hdim hf hk
  refine ⟨N, fun fuel hfuel => ?_⟩
  obtain ⟨sol, hsol, hc⟩ := hN fuel hfuel
  have hopt : sol.code = .optimal := by
    rcases hc hmi hmt with h | h | h
    · exact h
    · exact absurd h (k1 env prm ws fuel sol (le_trans hpi (min_le_left _ _)) hsol)
    · rcases (k2 env prm ws fuel sol hd0 (le_trans hdi (le_trans (min_le_right _ _) (min_le_left _ _))) hsol h).2 i with h | h
      · exact absurd h hl
      · exact absurd h hu
  refine ⟨sol, hsol, hopt, ?_⟩
  obtain ⟨x, y, h4, h5, h6, h7⟩ := k3 env prm ws fuel sol hsq hr hpol hea.le her (le_trans hle (le_trans (min_le_right _ _) (min_le_right _ _))) hsol hopt
  exact ⟨x, y, h5 hP, h4, h6, h7⟩

/-! ### The missing part is false -/

/-- `min P x² / 2 + q x` subject to `x ≤ u`. -/
def parabola (P q u : ℚ) : Pbm ℚ 1 1 := ⟨fun _ _ => P, fun _ => q, fun _ _ => 1, fun _ => .neg, fun _ => .fin u⟩

theorem parabola_minimiser {P q u : ℚ} (hP : 0 < P) (hq : P * u + q ≤ 0) : Minimiser (parabola P q u) (fun _ => u) ∧
    ∀ x, Minimiser (parabola P q u) x → x = fun _ => u := by
  have hc : ∀ w : Fin 1 → ℚ, cost (parabola P q u) w = 1 / 2 * (w 0 * (P * w 0)) + q * w 0 := fun w => by
    simp [cost, parabola, mulVec, dotProduct]
    ring
  have hf : ∀ w : Fin 1 → ℚ, Feasible (parabola P q u) w ↔ w 0 ≤ u := fun w => by
    simp [Feasible, InBox, parabola, lower, upper, mulVec, dotProduct]
  have hm : Minimiser (parabola P q u) (fun _ => u) := by
    refine ⟨(hf _).2 le_rfl, fun w hw => ?_⟩
    rw [hc, hc]
    have h1 := (hf w).1 hw
    nlinarith [mul_nonneg hP.le (sq_nonneg (u - w 0)), mul_nonneg (sub_nonneg.2 h1) (neg_nonneg.2 hq)]
  refine ⟨hm, fun x hx => ?_⟩
  have h1 := (hf x).1 hx.1
  have h2 := hx.2 _ hm.1
  rw [hc, hc] at h2
  have h3 : P * (u - x 0) ^ 2 ≤ 0 := by
    nlinarith [mul_nonneg (sub_nonneg.2 h1) (neg_nonneg.2 hq)]
  have h4 : (u - x 0) ^ 2 = 0 := le_antisymm (by
    by_contra h
    have := mul_pos hP (not_le.1 h)
    linarith) (sq_nonneg _)
  funext i
  rw [Subsingleton.elim i 0]
  have := pow_eq_zero_iff (two_ne_zero) |>.1 h4
  linarith

/-- **C112, negation.** Strictly convex programs with one unknown, a unique minimiser and one bound are called dual infeasible in exact arithmetic
with a cold start: with all default parameters, and (without scaling) with all tolerances zero. The second iteration leaves the unknown where it is and the
test accepts the direction zero. -/
theorem qp_dual_infeasible_strictly_convex :
    (∃ sol, solveQP env1 Params.default (parabola 1 (-8) (1474995 / 225001)) none 5 = .ok sol ∧ sol.code = .dualInfeasible) ∧
    (∃! x, Minimiser (parabola 1 (-8) (1474995 / 225001)) x) ∧
    (∃ sol, solveQP env1 { Params.default with scaling := false, epsAbs := 0, epsRel := 0, epsPrimalInf := 0, epsDualInf := 0 }
      (parabola (1 / 10) (-66667 / 466665) 1) none 5 = .ok sol ∧ sol.code = .dualInfeasible) ∧
    ∃! x, Minimiser (parabola (1 / 10) (-66667 / 466665) 1) x := by
  refine ⟨?_, ?_, ?_, ?_⟩
  · obtain ⟨sol, h, h'⟩ := Out.test_iff (o := solveQP env1 Params.default (parabola 1 (-8) (1474995 / 225001)) none 5)
      (f := fun sol => decide (sol.code = .dualInfeasible)) (by decide +kernel)
    exact ⟨sol, h, of_decide_eq_true h'⟩
  · obtain ⟨h1, h2⟩ := parabola_minimiser (P := 1) (q := -8) (u := 1474995 / 225001) (by norm_num) (by norm_num)
    exact ⟨_, h1, h2⟩
  · obtain ⟨sol, h, h'⟩ := Out.test_iff (o := solveQP env1 { Params.default with scaling := false, epsAbs := 0, epsRel := 0, epsPrimalInf := 0, epsDualInf := 0 }
      (parabola (1 / 10) (-66667 / 466665) 1) none 5) (f := fun sol => decide (sol.code = .dualInfeasible)) (by decide +kernel)
    exact ⟨sol, h, of_decide_eq_true h'⟩
  · obtain ⟨h1, h2⟩ := parabola_minimiser (P := 1 / 10) (q := -66667 / 466665) (u := 1) (by norm_num) (by norm_num)
    exact ⟨_, h1, h2⟩

end Verif.QP
