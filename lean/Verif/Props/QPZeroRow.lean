import Verif.Props.QPThreshold

/-!
# Empty rows and small tolerances (C112)

A row without entries whose bounds are zero makes the multipliers unbounded, although it says nothing. `ocp_to_qp` writes such a row for the final time of every
problem that fixes it. With an exact factorisation its multiplier never changes, and such rows do not stand in the way of the verdict.
-/

set_option linter.unusedSectionVars false

namespace Verif.QP

open Matrix Verif.QPSpec

variable {F : Type*} [Field F] [LinearOrder F] [IsStrictOrderedRing F] {n m : ℕ} {p : Pbm F n m}

/-- A row without entries and with bounds zero. -/
def EmptyRow (p : Pbm F n m) (i : Fin m) : Prop := (∀ j, p.A i j = 0) ∧ p.l i = .fin 0 ∧ p.u i = .fin 0

/-- On an empty row a pass of the loop changes nothing. -/
theorem step_emptyRow {alpha sigma : F} {s : Scaling F n m} {rho : Fin m → F} {slv : (Fin n ⊕ Fin m → F) → (Fin n ⊕ Fin m → F)} (hr : ∀ i, rho i ≠ 0)
    (hslv : ∀ b, symUpper (kkt sigma p s rho) *ᵥ slv b = b) {i : Fin m} (hi : EmptyRow p i) {it : It F n m} (hz : it.z i = 0) :
    (step alpha sigma p s rho slv it).z i = 0 ∧ (step alpha sigma p s rho slv it).y i = it.y i := by
  obtain ⟨hA, hl, hu⟩ := hi
  have hzn : (step alpha sigma p s rho slv it).z i = 0 := by
    simp only [step, hl, hu, Ext.scale, mul_zero, maxE, minE]
    exact min_eq_right (le_max_right _ _)
  refine ⟨hzn, ?_⟩
  set b : Fin n ⊕ Fin m → F := Sum.elim (fun j => sigma * it.x j - s.c * s.sx j * p.q j) (fun i => it.z i - (rho i)⁻¹ * it.y i) with hb
  have h1 := congrFun (hslv b) (.inr i)
  have h2 : (symUpper (kkt sigma p s rho) *ᵥ slv b) (.inr i) = (-rho i)⁻¹ * slv b (.inr i) := by
    unfold mulVec dotProduct
    rw [Fintype.sum_sum_type]
    have e1 : ∑ j, symUpper (kkt sigma p s rho) (.inr i) (.inl j) * slv b (.inl j) = 0 :=
      Finset.sum_eq_zero fun j _ => by simp [symUpper, kkt, hA]
    rw [e1, zero_add, Finset.sum_eq_single i (fun j _ hj => by
      simp only [symUpper, kkt]
      rw [if_neg hj.symm, if_neg hj, ite_self, zero_mul]) (fun h => absurd (Finset.mem_univ _) h)]
    simp [symUpper, kkt]
  rw [h2, hb] at h1
  simp only [Sum.elim_inr, hz, zero_sub] at h1
  have h3 : slv b (.inr i) = it.y i := by
    have hne := hr i
    rw [inv_neg, neg_mul, neg_inj] at h1
    exact mul_left_cancel₀ (inv_ne_zero hne) h1
  have h4 : (step alpha sigma p s rho slv it).y i = (1 - alpha) * it.y i + alpha * slv b (.inr i) + rho i * it.z i - rho i * (step alpha sigma p s rho slv it).z i := rfl
  rw [h4, hzn, hz, h3]
  ring

theorem iterates_emptyRow {prm : Params F} {s : Scaling F n m} {slv : (Fin n ⊕ Fin m → F) → (Fin n ⊕ Fin m → F)} {ws : Option ((Fin n → F) × (Fin m → F))}
    (hr : ∀ i, rhoVec prm p s i ≠ 0) (hslv : ∀ b, symUpper (kkt prm.sigma p s (rhoVec prm p s)) *ᵥ slv b = b) {i : Fin m} (hi : EmptyRow p i) (k : ℕ) :
    (iterates prm p s slv ws k).z i = 0 ∧ (iterates prm p s slv ws (k + 1)).y i = (iterates prm p s slv ws k).y i := by
  have hz : ∀ k, (iterates prm p s slv ws k).z i = 0 := by
    intro k
    induction k with
    | zero =>
      change (start p s ws).z i = 0
      cases ws with
      | none => rfl
      | some w =>
        change s.sy i * (p.A *ᵥ w.1) i = 0
        have : (p.A *ᵥ w.1) i = 0 := by
          unfold mulVec dotProduct
          exact Finset.sum_eq_zero fun j _ => by simp only [hi.1 j, zero_mul]
        rw [this, mul_zero]
    | succ k ih =>
      rw [iterates_succ]
      exact (step_emptyRow hr hslv hi ih).1
  refine ⟨hz k, ?_⟩
  rw [iterates_succ]
  exact (step_emptyRow hr hslv hi (hz k)).2

/-- A `PrimalInfeasible` verdict on a feasible program: the certificate does not touch empty rows. -/
theorem primal_verdict_emptyRow {env : Env F n} {prm : Params F} {ws : Option ((Fin n → F) × (Fin m → F))} {fuel : ℕ} {sol : Sol F n m} (hx : ∃ x, Feasible p x)
    (hl : LdltOk env) (hsq : SqrtPos env) (hr : 0 < prm.rho) (h : solveQP env prm p ws fuel = .ok sol) (hc : sol.code = .primalInfeasible) :
    ∃ d, ApproxFarkas p prm.epsPrimalInf d ∧ ∀ i, EmptyRow p i → d i = 0 := by
  obtain ⟨x, hx⟩ := hx
  obtain ⟨s, hs, h1⟩ := solveQP_ok h
  have hpos := chosenScaling_pos hsq hs
  obtain ⟨k, r, hf, hcon⟩ := solveScaled_facts h1
  have hcode := conclude_code hcon
  rw [hc] at hcode
  rcases run_code hf with ⟨h2, -⟩ | ⟨hfac, ⟨-, h2, h3⟩ | ⟨h2, -⟩ | ⟨-, k', -, -, c, h2, h3⟩⟩
  · rw [h2] at hcode; cases hcode.1
  · rw [precheck_of_feasible hx] at h3; cases h3
  · rw [h2] at hcode; cases hcode.1
  · rw [h2] at hcode
    have : c = .primalInfeasible := hcode.1.symm
    subst this
    rcases check_codes h3 with ⟨h4, -⟩ | ⟨-, h4⟩ | ⟨h4, -⟩ | ⟨h4, -⟩
    · cases h4
    · refine ⟨_, primalInfTest_spec h4, fun i hi => ?_⟩
      rcases prepare_cases env prm p s with ⟨h5, -⟩ | ⟨slv, h5, h6⟩
      · exact absurd h5 hfac
      · have hslv : ∀ b, symUpper (kkt prm.sigma p s (rhoVec prm p s)) *ᵥ (prepare env prm p s).1 b = b := by
          rw [h6]
          exact hl _ _ _ h5
        have := (iterates_emptyRow (ws := ws) (fun i => (rhoOf_pos hr _ _).ne') hslv hi k').2
        simp [Scaling.unY, this]
    · cases h4
    · cases h4

/-- **C112, empty rows.** If the program has a feasible point and no flat direction of the multipliers other than those of empty rows, there is a threshold for the
tolerance below which the solver, with an exact factorisation, never reports `PrimalInfeasible`. -/
theorem qp_threshold_emptyRow (hx : ∃ x, Feasible p x) (hflat : ∀ d, FlatMult p d → (∀ i, EmptyRow p i → d i = 0) → d = 0) : ∃ e0 : F, 0 < e0 ∧
    ∀ (env : Env F n) (prm : Params F) (ws : Option ((Fin n → F) × (Fin m → F))) (fuel : ℕ) (sol : Sol F n m), SqrtPos env → LdltOk env → 0 < prm.rho →
      prm.epsPrimalInf ≤ e0 → solveQP env prm p ws fuel = .ok sol → sol.code ≠ .primalInfeasible := by
  classical
  let p' : Pbm F n m := ⟨p.P, p.q, p.A, fun i => if EmptyRow p i then .neg else p.l i, fun i => if EmptyRow p i then .pos else p.u i⟩
  have hsup : ∀ d : Fin m → F, (∀ i, EmptyRow p i → d i = 0) → support p' d = support p d := by
    intro d hd
    unfold support
    refine Finset.sum_congr rfl fun i _ => ?_
    by_cases hi : EmptyRow p i
    · simp only [p', if_pos hi, hi.2.1, hi.2.2, hd i hi]
      simp
    · simp only [p', if_neg hi]
  have hflat' : ∀ d, FlatMult p' d → d = 0 := by
    rintro d ⟨d1, d2, d3⟩
    have h0 : ∀ i, EmptyRow p i → d i = 0 := fun i hi => le_antisymm ((d3 i).1 (if_pos hi)) ((d3 i).2 (if_pos hi))
    refine hflat d ⟨d1, by rw [← hsup d h0]; exact d2, fun i => ?_⟩ h0
    by_cases hi : EmptyRow p i
    · rw [h0 i hi]
      exact ⟨fun _ => le_rfl, fun _ => le_rfl⟩
    · have := d3 i
      simp only [p', if_neg hi] at this
      exact this
  obtain ⟨e0, he0, h⟩ := farkas_margin hflat'
  refine ⟨e0, he0, fun env prm ws fuel sol hsq hl hr he hsol hc => ?_⟩
  rcases le_total prm.epsPrimalInf 0 with h0 | h0
  · obtain ⟨x, hx⟩ := hx
    exact qp_primal_infeasible_zero_tol h0 hsol hc x hx
  · obtain ⟨d, ⟨r, k1, k2, k3, k4, k5⟩, hd⟩ := primal_verdict_emptyRow hx hl hsq hr hsol hc
    refine h _ d h0 he ⟨r, k1, k2, k3, by rw [hsup d hd]; exact k4, fun i => ?_⟩
    by_cases hi : EmptyRow p i
    · rw [hd i hi]
      have : 0 ≤ prm.epsPrimalInf * r := mul_nonneg h0 k2.le
      exact ⟨fun _ => this, fun _ => by linarith⟩
    · simp only [p', if_neg hi]
      exact k5 i

/-- **C112, together, with empty rows.** As `qp_small_tolerances_solve`, where only empty rows may have unbounded multipliers. -/
theorem qp_small_tolerances_emptyRow [Archimedean F] (hP : Lin.PSD p.P) {x : Fin n → F} {y : Fin m → F} (hk : KKT p x y) (hx : BoundedSolutions p)
    (hy : ∀ d, FlatMult p d → (∀ i, EmptyRow p i → d i = 0) → d = 0) {i : Fin m} (hl : p.l i ≠ .neg) (hu : p.u i ≠ .pos) : ∃ C e0 : F, 0 ≤ C ∧ 0 < e0 ∧
    ∀ (env : Env F n) (prm : Params F) (ws : Option ((Fin n → F) × (Fin m → F))), SqrtPos env → LdltOk env → (prm.scaling = true → n ≠ 0 ∧ m ≠ 0) →
      (∀ s : Scaling F n m, s.Pos → env.factor m (kkt prm.sigma p s (rhoVec prm p s)) ≠ none) →
      0 < prm.alpha → prm.alpha < 2 → 0 < prm.sigma → 0 < prm.rho → 2 ≤ prm.stopCheckIter → prm.polish = false →
      prm.maxIter = none → prm.maxTime = none → 0 < prm.epsAbs → prm.epsAbs ≤ e0 → prm.epsRel = 0 → prm.epsPrimalInf ≤ e0 →
      0 ≤ prm.epsDualInf → prm.epsDualInf ≤ e0 →
      ∃ N, ∀ fuel, N ≤ fuel → ∃ sol, solveQP env prm p ws fuel = .ok sol ∧ sol.code = .optimal ∧
        ∃ x y, Minimiser p x ∧ KKT p x y ∧ (∀ j, |x j - sol.primal j| ≤ C * prm.epsAbs) ∧ ∀ i, |y i - sol.dual i| ≤ C * prm.epsAbs := by
  obtain ⟨e1, h1, k1⟩ := qp_threshold_emptyRow ⟨x, hk.1⟩ hy
  obtain ⟨e2, h2, k2⟩ := qp_threshold_dual_partial hP.1 hk hx
  obtain ⟨C, hC, hb⟩ := qp_error_bound_abs p.P p.A
  obtain ⟨e3, h3, k3⟩ := hb p.q p.l p.u
  refine ⟨C, min e1 (min e2 e3), hC, lt_min h1 (lt_min h2 h3), fun env prm ws hsq hld hdim hf ha ha' hs hr hsc hpol hmi hmt hea hle her hpi hd0 hdi => ?_⟩
  obtain ⟨N, hN⟩ := qp_terminates (ws := ws) hsq hld hP ha ha' hs hr hea her.ge hsc hdim hf hk
  refine ⟨N, fun fuel hfuel => ?_⟩
  obtain ⟨sol, hsol, hc⟩ := hN fuel hfuel
  have hopt : sol.code = .optimal := by
    rcases hc hmi hmt with h | h | h
    · exact h
    · exact absurd h (k1 env prm ws fuel sol hsq hld hr (le_trans hpi (min_le_left _ _)) hsol)
    · rcases (k2 env prm ws fuel sol hd0 (le_trans hdi (le_trans (min_le_right _ _) (min_le_left _ _))) hsol h).2 i with h | h
      · exact absurd h hl
      · exact absurd h hu
  refine ⟨sol, hsol, hopt, ?_⟩
  obtain ⟨x, y, h4, h5, h6, h7⟩ := k3 env prm ws fuel sol hsq hr hpol hea.le her (le_trans hle (le_trans (min_le_right _ _) (min_le_right _ _))) hsol hopt
  exact ⟨x, y, h5 hP, h4, h6, h7⟩

/-- A program with such a row, where the multipliers are unbounded: `min x²/2` subject to `0 x = 0` and `-1 ≤ x ≤ 1`. -/
def emptyRowProgram : Pbm ℚ 1 2 := ⟨fun _ _ => 1, fun _ => 0, fun i _ => ![0, 1] i, ![.fin 0, .fin (-1)], ![.fin 0, .fin 1]⟩

example : EmptyRow emptyRowProgram 0 ∧ (∀ t, KKT emptyRowProgram 0 ![t, 0]) ∧ ¬ BoundedMultipliers emptyRowProgram ∧
    ∀ d, FlatMult emptyRowProgram d → (∀ i, EmptyRow emptyRowProgram i → d i = 0) → d = 0 := by
  have hE : EmptyRow emptyRowProgram 0 := ⟨fun j => rfl, rfl, rfl⟩
  have hk : ∀ t, KKT emptyRowProgram 0 ![t, 0] := by
    intro t
    refine ⟨fun i => ?_, ?_, fun i => ?_⟩
    · fin_cases i <;> simp [emptyRowProgram, lower, upper, mulVec, dotProduct]
    · funext j
      have e : emptyRowProgram.Aᵀ *ᵥ ![t, 0] = 0 := by
        funext j
        change ∑ i : Fin 2, ![(0 : ℚ), 1] i * ![t, 0] i = 0
        simp
      rw [e, mulVec_zero]
      simp [emptyRowProgram]
    · fin_cases i <;> simp [emptyRowProgram, mulVec, dotProduct]
  refine ⟨hE, hk, ?_, ?_⟩
  · rintro ⟨R, hR⟩
    have := hR _ _ (hk (|R| + 1)) 0
    simp only [cons_val_zero] at this
    rw [abs_of_pos (by positivity)] at this
    have := le_abs_self R
    linarith
  · rintro d ⟨d1, -, -⟩ h0
    have h1 := congrFun d1 0
    change ∑ i : Fin 2, ![(0 : ℚ), 1] i * d i = 0 at h1
    rw [Fin.sum_univ_two] at h1
    simp at h1
    funext i
    fin_cases i
    · exact h0 0 hE
    · exact h1

end Verif.QP
