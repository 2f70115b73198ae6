import Verif.Proofs.QPConv
import Verif.Proofs.QPWitness

/-!
# The QP solver terminates and converges (C79, C80)

The statements are about the iterates of `solve_qp` in the problem's own variables, for every convex program that has a
solution with multipliers.
-/

set_option linter.unusedSectionVars false

namespace Verif.QP

open Matrix Verif.QPSpec

variable {F : Type*} [Field F] [LinearOrder F] [IsStrictOrderedRing F] {n m : ℕ}
  {env : Env F n} {prm : Params F} {p : Pbm F n m} {ws : Option ((Fin n → F) × (Fin m → F))}

/-! ### From scaled to unscaled -/

theorem scaled_psd {s : Scaling F n m} (hs : s.Pos) (hP : Lin.PSD p.P) : Lin.PSD (scaledPbm p s.c s.sx s.sy).P := by
  constructor
  · ext i j
    change s.c * s.sx j * p.P j i * s.sx i = s.c * s.sx i * p.P i j * s.sx j
    rw [hP.1.apply]; ring
  · intro v
    have : v ⬝ᵥ (scaledPbm p s.c s.sx s.sy).P *ᵥ v = s.c * (s.unX v ⬝ᵥ p.P *ᵥ s.unX v) := by
      simp only [dotProduct]
      rw [Finset.mul_sum]
      refine Finset.sum_congr rfl fun j _ => ?_
      rw [scaled_P]
      simp only [Scaling.unX]; ring
    rw [this]
    exact mul_nonneg hs.1.le (hP.2 _)

theorem scaled_rowOk {s : Scaling F n m} (hs : s.Pos) (h : ∀ i, RowOk (p.l i) (p.u i)) (i : Fin m) :
    RowOk ((scaledPbm p s.c s.sx s.sy).l i) ((scaledPbm p s.c s.sx s.sy).u i) := by
  have := h i
  simp only [scaledPbm]
  have hp := hs.2.2 i
  revert this
  cases p.l i <;> cases p.u i <;> simp only [scaleBound, RowOk, emptyRow, decide_eq_false_iff_not, not_lt, imp_self]
  intro h
  rw [← mul_sub]
  exact mul_nonneg hp.le h

/-- A solution, scaled, as an iterate. -/
theorem start_good {s : Scaling F n m} (hs : s.Pos) {x : Fin n → F} {y : Fin m → F} (h : KKT p x y) :
    ZBox (scaledPbm p s.c s.sx s.sy) (start p s (some (x, y))) := by
  have h' : KKT (scaledPbm p s.c s.sx s.sy) (start p s (some (x, y))).x (start p s (some (x, y))).y := by
    rw [scaled_kkt hs, start_unX hs, start_unY hs]; exact h
  have hz : (start p s (some (x, y))).z = (scaledPbm p s.c s.sx s.sy).A *ᵥ (start p s (some (x, y))).x := by
    funext i
    rw [scaled_A, start_unX hs]; rfl
  unfold ZBox
  rw [hz]
  exact ⟨h'.1, h'.2.2⟩

/-- The iterates of a run, as a run of the scaled problem. -/
theorem iterates_scaled {s : Scaling F n m} (hs : s.Pos) (slv : (Fin n ⊕ Fin m → F) → (Fin n ⊕ Fin m → F)) (k : ℕ) :
    iterates prm p s slv ws (k + 1) = step prm.alpha prm.sigma (scaledPbm p s.c s.sx s.sy) Scaling.unit (rhoVec prm p s) slv
      (iterates prm p s slv ws k) := by
  rw [iterates_succ, (scaled_iteration prm hs slv _).2.2, ← (scaled_iteration prm hs slv (start p s ws)).1]

theorem slv_scaled {s : Scaling F n m} (hs : s.Pos) {slv : (Fin n ⊕ Fin m → F) → (Fin n ⊕ Fin m → F)} (hl : LdltOk env)
    (hf : env.factor m (kkt prm.sigma p s (rhoVec prm p s)) = some slv) (b : Fin n ⊕ Fin m → F) :
    symUpper (kkt prm.sigma (scaledPbm p s.c s.sx s.sy) Scaling.unit (rhoVec prm p s)) *ᵥ slv b = b := by
  have h := (scaled_iteration (p := p) prm hs slv (start p s none)).2.1
  rw [← (scaled_iteration prm hs slv (start p s none)).1] at h
  rw [← h]
  exact hl _ _ _ hf b

/-- What the iteration needs: a convex problem, a relaxation between 0 and 2, positive penalties, and a linear solver
that succeeds and is exact. -/
structure Regular (env : Env F n) (prm : Params F) (p : Pbm F n m) (s : Scaling F n m)
    (slv : (Fin n ⊕ Fin m → F) → (Fin n ⊕ Fin m → F)) : Prop where
  convex : Lin.PSD p.P
  alpha_pos : 0 < prm.alpha
  alpha_lt : prm.alpha < 2
  sigma_pos : 0 < prm.sigma
  rho_pos : 0 < prm.rho
  scaling_pos : s.Pos
  ldlt : LdltOk env
  factor : env.factor m (kkt prm.sigma p s (rhoVec prm p s)) = some slv

theorem exists_ub {k : ℕ} (f : Fin k → F) : ∃ K, 0 < K ∧ ∀ i, f i ≤ K :=
  ⟨1 + ∑ i, |f i|, add_pos_of_pos_of_nonneg one_pos (Finset.sum_nonneg fun _ _ => abs_nonneg _), fun i => by
    have := Finset.single_le_sum (f := fun i => |f i|) (fun i _ => abs_nonneg _) (Finset.mem_univ i)
    have h2 := le_abs_self (f i)
    linarith⟩

theorem exists_lb {k : ℕ} {f : Fin k → F} (h : ∀ i, 0 < f i) {a : F} (ha : 0 < a) : ∃ K, 0 < K ∧ K ≤ a ∧ ∀ i, K ≤ f i := by
  obtain ⟨K, hK, hK'⟩ := exists_ub fun i => (f i)⁻¹
  refine ⟨min a K⁻¹, lt_min ha (inv_pos.2 hK), min_le_left _ _, fun i => le_trans (min_le_right _ _) ?_⟩
  rw [inv_le_comm₀ hK (h i)]
  exact hK' i

section

variable {s : Scaling F n m} {slv : (Fin n ⊕ Fin m → F) → (Fin n ⊕ Fin m → F)}

/-- **C79, C80.** Residuals: for every tolerance, from some iteration on, both residuals of the iterates are below it. -/
theorem qp_residuals_vanish [Archimedean F] (h : Regular env prm p s slv) {x : Fin n → F} {y : Fin m → F} (hk : KKT p x y)
    {ε : F} (hε : 0 < ε) : ∃ N, ∀ k, N ≤ k →
      (∀ i, |(p.A *ᵥ s.unX (iterates prm p s slv ws k).x) i - s.unZ (iterates prm p s slv ws k).z i| ≤ ε) ∧
      ∀ j, |(p.P *ᵥ s.unX (iterates prm p s slv ws k).x) j + p.q j + (p.Aᵀ *ᵥ s.unY (iterates prm p s slv ws k).y) j| ≤ ε := by
  obtain ⟨hP, ha, ha', hsig, hr, hs, hl, hf⟩ := h
  set p' := scaledPbm p s.c s.sx s.sy with hp'
  set rho := rhoVec prm p s with hrho
  have hrp : ∀ i, 0 < rho i := fun i => rhoOf_pos hr _ _
  have hP' := scaled_psd hs hP
  have hslv := slv_scaled (prm := prm) (p := p) hs hl hf
  have hrow : ∀ i, RowOk (p.l i) (p.u i) := fun i => rowOk_of_mem (hk.1 i).1 (hk.1 i).2
  have hrow' := scaled_rowOk hs hrow
  have hg := start_good hs hk
  have hfix : step prm.alpha prm.sigma p' Scaling.unit rho slv (start p s (some (x, y))) = start p s (some (x, y)) := by
    have := step_fix (alpha := prm.alpha) (slv := slv) hP hs hsig hrp (hl _ _ _ hf) hk
    rw [(scaled_iteration prm hs slv _).2.2, ← (scaled_iteration prm hs slv (start p s ws)).1] at this
    exact this
  have ht := iterates_scaled (prm := prm) (p := p) (ws := ws) hs slv
  set t := iterates prm p s slv ws with htdef
  have hgt : ∀ k, ZBox p' (t (k + 1)) := fun k => by rw [ht]; exact step_good hrow' hrp _
  obtain ⟨mu, hmu, hms, hmr⟩ := exists_lb hrp hsig
  obtain ⟨K1, hK1, hK1'⟩ := exists_ub fun i => (s.sy i)⁻¹ * (1 + prm.alpha + |prm.alpha - 1| * ∑ j, |p'.A i j|)
  obtain ⟨K2, hK2, hK2'⟩ := exists_ub fun j => (s.c * s.sx j)⁻¹ * (prm.sigma + |prm.alpha - 1| * (∑ k, |p'.P j k|) +
    (|prm.alpha - 1| + prm.alpha) * ∑ i, |p'.A i j| * rho i)
  set K := max K1 K2 with hK
  have hKp : 0 < K := lt_max_of_lt_left hK1
  set δ := ε / K with hδ
  have hδp : 0 < δ := div_pos hε hKp
  set T := prm.alpha ^ 2 * (mu * δ ^ 2) with hT
  have hTp : 0 < T := mul_pos (pow_pos ha 2) (mul_pos hmu (pow_pos hδp 2))
  have hc : 0 < (2 - prm.alpha) / prm.alpha := div_pos (by linarith) ha
  obtain ⟨N, hN⟩ := exists_nat_gt (dist2 prm.sigma rho (t 1) (start p s (some (x, y))) / ((2 - prm.alpha) / prm.alpha * T))
  rw [div_lt_iff₀ (mul_pos hc hTp)] at hN
  have hsmall : ∀ k, N ≤ k → dist2 prm.sigma rho (t (k + 2)) (t (k + 1)) ≤ T := by
    intro k hk'
    have h1 := run_rate hP' ha ha' hsig.le hrp hrow' hslv ht hg hfix k
    have h2 := dist2_nonneg hsig.le hrp (t (k + 1)) (start p s (some (x, y)))
    by_contra hcon
    rw [not_le] at hcon
    have h3 : (N : F) * ((2 - prm.alpha) / prm.alpha * T) ≤ k * ((2 - prm.alpha) / prm.alpha * dist2 prm.sigma rho (t (k + 2)) (t (k + 1))) :=
      mul_le_mul (by exact_mod_cast hk') (mul_le_mul_of_nonneg_left hcon.le hc.le) (mul_pos hc hTp).le (Nat.cast_nonneg _)
    linarith
  refine ⟨N + 2, fun k hk' => ?_⟩
  obtain ⟨k, rfl⟩ : ∃ l, k = l + 2 := ⟨k - 2, by omega⟩
  have h1 := hsmall k (by omega)
  rw [ht (k + 1)] at h1
  obtain ⟨hx, hy⟩ := step_small ha hsig.le hrp hmu hms hmr hδp.le h1
  obtain ⟨hpr, hdu⟩ := step_residuals hP'.1 ha.le hsig.le hrp hrow' hslv (hgt k) hx hy
  rw [← ht] at hpr hdu
  constructor
  · intro i
    have e : (p.A *ᵥ s.unX (t (k + 2)).x) i - s.unZ (t (k + 2)).z i = (s.sy i)⁻¹ * ((p'.A *ᵥ (t (k + 2)).x) i - (t (k + 2)).z i) := by
      rw [hp', scaled_A]
      simp only [Scaling.unZ]
      rw [mul_sub, inv_mul_cancel_left₀ (hs.2.2 i).ne']
    rw [e, abs_mul, abs_of_pos (inv_pos.2 (hs.2.2 i))]
    calc (s.sy i)⁻¹ * |(p'.A *ᵥ (t (k + 2)).x) i - (t (k + 2)).z i|
        ≤ (s.sy i)⁻¹ * (δ * (1 + prm.alpha + |prm.alpha - 1| * ∑ j, |p'.A i j|)) :=
          mul_le_mul_of_nonneg_left (hpr i) (inv_pos.2 (hs.2.2 i)).le
      _ = δ * ((s.sy i)⁻¹ * (1 + prm.alpha + |prm.alpha - 1| * ∑ j, |p'.A i j|)) := by ring
      _ ≤ δ * K := mul_le_mul_of_nonneg_left (le_trans (hK1' i) (le_max_left _ _)) hδp.le
      _ = ε := by rw [hδ, div_mul_cancel₀ _ hKp.ne']
  · intro j
    have hcs : 0 < s.c * s.sx j := mul_pos hs.1 (hs.2.1 j)
    have e : (p.P *ᵥ s.unX (t (k + 2)).x) j + p.q j + (p.Aᵀ *ᵥ s.unY (t (k + 2)).y) j =
        (s.c * s.sx j)⁻¹ * ((p'.P *ᵥ (t (k + 2)).x) j + p'.q j + (p'.Aᵀ *ᵥ (t (k + 2)).y) j) := by
      rw [hp', scaled_P, scaled_At hs]
      simp only [scaledPbm]
      rw [eq_inv_mul_iff_mul_eq₀ hcs.ne']
      ring
    rw [e, abs_mul, abs_of_pos (inv_pos.2 hcs)]
    refine le_trans (mul_le_mul_of_nonneg_left (hdu j) (inv_pos.2 hcs).le) ?_
    rw [mul_left_comm]
    refine le_trans (mul_le_mul_of_nonneg_left (le_trans (hK2' j) (le_max_right K1 K2)) hδp.le) (le_of_eq ?_)
    rw [hδ, ← hK, div_mul_cancel₀ _ hKp.ne']

/-- **C79.** The rate: after `N + 1` iterations the squared size of a step is at most `alpha / (2 - alpha) / N` times the
squared distance of the first iterate from any solution, and that distance has not grown. -/
theorem qp_rate (h : Regular env prm p s slv) {x : Fin n → F} {y : Fin m → F} (hk : KKT p x y) (N : ℕ) :
    dist2 prm.sigma (rhoVec prm p s) (iterates prm p s slv ws (N + 1)) (start p s (some (x, y))) +
      N * ((2 - prm.alpha) / prm.alpha *
        dist2 prm.sigma (rhoVec prm p s) (iterates prm p s slv ws (N + 2)) (iterates prm p s slv ws (N + 1))) ≤
      dist2 prm.sigma (rhoVec prm p s) (iterates prm p s slv ws 1) (start p s (some (x, y))) := by
  obtain ⟨hP, ha, ha', hsig, hr, hs, hl, hf⟩ := h
  have hrp : ∀ i, 0 < rhoVec prm p s i := fun i => rhoOf_pos hr _ _
  have hrow : ∀ i, RowOk (p.l i) (p.u i) := fun i => rowOk_of_mem (hk.1 i).1 (hk.1 i).2
  have hfix := step_fix (alpha := prm.alpha) (slv := slv) hP hs hsig hrp (hl _ _ _ hf) hk
  rw [(scaled_iteration prm hs slv _).2.2, ← (scaled_iteration prm hs slv (start p s ws)).1] at hfix
  exact run_rate (scaled_psd hs hP) ha ha' hsig.le hrp (scaled_rowOk hs hrow) (slv_scaled (prm := prm) (p := p) hs hl hf)
    (iterates_scaled (prm := prm) (p := p) (ws := ws) hs slv) (start_good hs hk) hfix N

/-- **C79.** From some iteration on every iterate passes the optimality test of `check_stopping`. -/
theorem qp_eventually_optimal [Archimedean F] (h : Regular env prm p s slv) {x : Fin n → F} {y : Fin m → F} (hk : KKT p x y)
    (hea : 0 < prm.epsAbs) (her : 0 ≤ prm.epsRel) : ∃ N, ∀ k, N ≤ k →
      optimalTest prm p (s.unX (iterates prm p s slv ws k).x) (s.unY (iterates prm p s slv ws k).y)
        (s.unZ (iterates prm p s slv ws k).z) = true := by
  obtain ⟨N, hN⟩ := qp_residuals_vanish (ws := ws) h hk hea
  refine ⟨N, fun k hk' => ?_⟩
  obtain ⟨h1, h2⟩ := hN k hk'
  unfold optimalTest
  simp only [Bool.and_eq_true, decide_eq_true_eq]
  constructor
  · refine le_trans (norm_le hea.le h1) (le_add_of_nonneg_right (mul_nonneg her ?_))
    exact le_trans (norm_nonneg _) (le_max_right _ _)
  · refine le_trans (norm_le hea.le fun j => ?_) (le_add_of_nonneg_right (mul_nonneg her ?_))
    · rw [← add_assoc]; exact h2 j
    · exact le_trans (norm_nonneg _) (le_max_right _ _)

end

/-- **C79.** `solve_qp` ends on every convex program that has a solution with multipliers: without any limit on
iterations or time it returns, with a code that is `Optimal` or one of the two infeasibility codes (those can be wrong,
see C06 and C07). -/
theorem qp_terminates [Archimedean F] (hsq : SqrtPos env) (hl : LdltOk env) (hP : Lin.PSD p.P) (ha : 0 < prm.alpha)
    (ha' : prm.alpha < 2) (hsig : 0 < prm.sigma) (hr : 0 < prm.rho) (hea : 0 < prm.epsAbs) (her : 0 ≤ prm.epsRel)
    (hsc : 2 ≤ prm.stopCheckIter) (hdim : prm.scaling = true → n ≠ 0 ∧ m ≠ 0)
    (hf : ∀ s : Scaling F n m, s.Pos → env.factor m (kkt prm.sigma p s (rhoVec prm p s)) ≠ none)
    {x : Fin n → F} {y : Fin m → F} (hk : KKT p x y) :
    ∃ N, ∀ fuel, N ≤ fuel → ∃ sol, solveQP env prm p ws fuel = .ok sol ∧
      (prm.maxIter = none → prm.maxTime = none →
        sol.code = .optimal ∨ sol.code = .primalInfeasible ∨ sol.code = .dualInfeasible) := by
  obtain ⟨s, hs⟩ := chosenScaling_some env prm p hdim
  have hpos := chosenScaling_pos hsq hs
  obtain ⟨slv, hslv⟩ := Option.ne_none_iff_exists'.1 (hf s hpos)
  have hprep : prepare env prm p s = (slv, none) := by
    rcases prepare_cases env prm p s with ⟨h1, -⟩ | ⟨slv', h1, h2⟩
    · rw [hslv] at h1; cases h1
    · rw [hslv] at h1; cases h1
      rw [h2, precheck_of_feasible hk.1]
  obtain ⟨N, hN⟩ := qp_eventually_optimal (ws := ws) ⟨hP, ha, ha', hsig, hr, hpos, hl, hslv⟩ hk hea her
  set e := prm.stopCheckIter * N + 1 with he
  have hle : N ≤ e := by rw [he]; nlinarith
  have hmod : e % prm.stopCheckIter = 1 := by
    rw [he, Nat.mul_add_mod]; exact Nat.mod_eq_of_lt (by omega)
  have hverd : verdict env prm p s (iterates prm p s slv ws) e ≠ none := by
    unfold verdict check checkStopping
    rw [if_pos hmod, hN (e + 1) (by omega)]
    simp
  refine ⟨e + 2, fun fuel hfuel => ?_⟩
  obtain ⟨sol, h1, h2⟩ := solveScaled_ends (ws := ws) (env := env) (prm := prm) (p := p) (s := s) (e := e + 1)
    (by omega) (Or.inr ⟨by omega, by rw [hprep]; exact hverd⟩) (fuel := fuel) (by omega)
  refine ⟨sol, by rw [solveQP_eq, hs]; exact h1, fun hmi hmt => ?_⟩
  obtain ⟨k, r, hfacts, hcon⟩ := solveScaled_facts h1
  rw [(conclude_code hcon).1]
  rcases run_code hfacts with ⟨_, _, h5⟩ | ⟨_, h5 | h5 | ⟨_, k', _, _, c, h6, h7⟩⟩
  · rw [hslv] at h5; cases h5
  · rw [h5.1]; exact Or.inr (Or.inl rfl)
  · rw [hmi] at h5; cases h5.2
  · rw [h6]
    unfold check at h7
    rw [hmt] at h7
    unfold checkStopping at h7
    by_cases c1 : optimalTest prm p (s.unX (iterates prm p s (prepare env prm p s).1 ws (k' + 1)).x)
        (s.unY (iterates prm p s (prepare env prm p s).1 ws (k' + 1)).y)
        (s.unZ (iterates prm p s (prepare env prm p s).1 ws (k' + 1)).z) = true
    · rw [if_pos c1] at h7; cases h7; exact Or.inl rfl
    · rw [if_neg c1] at h7
      by_cases c2 : primalInfTest prm p (s.unY ((iterates prm p s (prepare env prm p s).1 ws (k' + 1)).y -
          (iterates prm p s (prepare env prm p s).1 ws k').y)) = true
      · rw [if_pos c2] at h7; cases h7; exact Or.inr (Or.inl rfl)
      · rw [if_neg c2] at h7
        by_cases c3 : dualInfTest prm p (s.unX ((iterates prm p s (prepare env prm p s).1 ws (k' + 1)).x -
            (iterates prm p s (prepare env prm p s).1 ws k').x)) = true
        · rw [if_pos c3] at h7; cases h7; exact Or.inr (Or.inr rfl)
        · rw [if_neg c3] at h7; cases h7

/-- **C79.** With the infeasibility tolerances at zero, and a row with two finite bounds, the code is `Optimal`. -/
theorem qp_terminates_optimal [Archimedean F] (hsq : SqrtPos env) (hl : LdltOk env) (hP : Lin.PSD p.P) (ha : 0 < prm.alpha)
    (ha' : prm.alpha < 2) (hsig : 0 < prm.sigma) (hr : 0 < prm.rho) (hea : 0 < prm.epsAbs) (her : 0 ≤ prm.epsRel)
    (hsc : 2 ≤ prm.stopCheckIter) (hdim : prm.scaling = true → n ≠ 0 ∧ m ≠ 0)
    (hf : ∀ s : Scaling F n m, s.Pos → env.factor m (kkt prm.sigma p s (rhoVec prm p s)) ≠ none)
    {x : Fin n → F} {y : Fin m → F} (hk : KKT p x y) (hmi : prm.maxIter = none) (hmt : prm.maxTime = none)
    (hpi : prm.epsPrimalInf = 0) (hdi : prm.epsDualInf = 0) {i : Fin m} {a b : F} (hli : p.l i = .fin a) (hui : p.u i = .fin b) :
    ∃ N, ∀ fuel, N ≤ fuel → ∃ sol, solveQP env prm p ws fuel = .ok sol ∧ sol.code = .optimal := by
  obtain ⟨N, hN⟩ := qp_terminates (ws := ws) hsq hl hP ha ha' hsig hr hea her hsc hdim hf hk
  refine ⟨N, fun fuel hfuel => ?_⟩
  obtain ⟨sol, h1, h2⟩ := hN fuel hfuel
  refine ⟨sol, h1, ?_⟩
  have hcode := h2 hmi hmt
  obtain ⟨s, hs, h3⟩ := solveQP_ok h1
  obtain ⟨k, r, hfacts, hcon⟩ := solveScaled_facts h3
  have hc := (conclude_code hcon).1
  rcases run_code hfacts with ⟨_, _, h5⟩ | ⟨_, h5 | h5 | ⟨_, k', _, _, c, h6, h7⟩⟩
  · exact absurd h5 (hf s (chosenScaling_pos hsq hs))
  · rw [precheck_of_feasible hk.1] at h5; cases h5.2.2
  · rw [hmi] at h5; cases h5.2
  · rw [h6] at hc
    unfold check at h7
    rw [hmt] at h7
    unfold checkStopping at h7
    by_cases c1 : optimalTest prm p (s.unX (iterates prm p s (prepare env prm p s).1 ws (k' + 1)).x)
        (s.unY (iterates prm p s (prepare env prm p s).1 ws (k' + 1)).y)
        (s.unZ (iterates prm p s (prepare env prm p s).1 ws (k' + 1)).z) = true
    · rw [if_pos c1] at h7; cases h7; exact hc
    · exfalso
      rw [if_neg c1, if_neg, if_neg] at h7
      · cases h7
      · intro hd
        unfold dualInfTest at hd
        simp only [Bool.and_eq_true, List.all_eq_true] at hd
        have := hd.2 i (List.mem_finRange i)
        rw [hli, hui, hdi] at this
        simp only [dualRow, zero_mul, decide_eq_true_eq] at this
        exact absurd this (not_lt.2 (abs_nonneg _))
      · intro hd
        unfold primalInfTest at hd
        rw [hpi] at hd
        split at hd
        · cases hd
        · rw [zero_mul, decide_eq_true_eq] at hd
          exact absurd (lt_of_le_of_lt (le_max_left _ _) hd) (not_lt.2 (norm_nonneg _))

/-! ### A concrete case -/

/-- An exact linear solver: success exactly for nonsingular matrices. -/
noncomputable def exactFactor (k : ℕ) (H : Matrix (Fin n ⊕ Fin k) (Fin n ⊕ Fin k) F) :
    Option ((Fin n ⊕ Fin k → F) → (Fin n ⊕ Fin k → F)) :=
  if (symUpper H).det = 0 then none else some fun b => (symUpper H)⁻¹ *ᵥ b

theorem exactFactor_ok {k : ℕ} {H : Matrix (Fin n ⊕ Fin k) (Fin n ⊕ Fin k) F} {slv} (h : exactFactor k H = some slv)
    (b : Fin n ⊕ Fin k → F) : symUpper H *ᵥ slv b = b := by
  unfold exactFactor at h
  split at h
  · cases h
  · rename_i hd
    cases h
    rw [Matrix.mulVec_mulVec, Matrix.mul_nonsing_inv _ (isUnit_iff_ne_zero.2 hd), Matrix.one_mulVec]

/-- It succeeds on every system that the solver builds for a convex problem. -/
theorem exactFactor_ne_none {sigma : F} {s : Scaling F n m} {rho : Fin m → F} (hP : Lin.PSD p.P) (hs : s.Pos) (hsig : 0 < sigma)
    (hr : ∀ i, 0 < rho i) : exactFactor m (kkt sigma p s rho) ≠ none := by
  unfold exactFactor
  rw [if_neg]
  · simp
  · intro hd
    obtain ⟨v, hv, hMv⟩ := Matrix.exists_mulVec_eq_zero_iff.2 hd
    exact hv (kkt_injective hP hs hsig hr (hMv.trans (Matrix.mulVec_zero _).symm))

/-- The hypotheses are met by the default parameters, an exact linear solver and every convex program with variables and
constraints that has a solution with multipliers. -/
example [Archimedean F] {p : Pbm F (n + 1) (m + 1)} {ws} {sqrt : F → F} (hsq : ∀ a, 0 < a → 0 < sqrt a) (hP : Lin.PSD p.P)
    {x y} (hk : KKT p x y) : ∃ N, ∀ fuel, N ≤ fuel → ∃ sol,
      solveQP ⟨sqrt, 1 / 4503599627370496, exactFactor, 0, fun _ => 0⟩ Params.default p ws fuel = .ok sol ∧
      (sol.code = .optimal ∨ sol.code = .primalInfeasible ∨ sol.code = .dualInfeasible) := by
  obtain ⟨N, hN⟩ := qp_terminates (prm := Params.default) (ws := ws)
    (env := ⟨sqrt, 1 / 4503599627370496, exactFactor, 0, fun _ => 0⟩) hsq (fun _ _ _ h b => exactFactor_ok h b) hP
    (by norm_num [Params.default]) (by norm_num [Params.default]) (by norm_num [Params.default]) (by norm_num [Params.default])
    (by norm_num [Params.default]) (by norm_num [Params.default]) (by norm_num [Params.default]) (fun _ => ⟨by omega, by omega⟩)
    (fun s hs => exactFactor_ne_none hP hs (by norm_num [Params.default]) fun _ => rhoOf_pos (by norm_num [Params.default]) _ _) hk
  refine ⟨N, fun fuel hf => ?_⟩
  obtain ⟨sol, h1, h2⟩ := hN fuel hf
  exact ⟨sol, h1, h2 rfl rfl⟩

/-- Minimise `5e-4 x` over `[-1, 1]` with the tests for infeasibility switched off: `Optimal` from every warm start. -/
example (ws) : ∃ N, ∀ fuel, N ≤ fuel → ∃ sol,
    solveQP env1 { Params.default with epsPrimalInf := 0, epsDualInf := 0 } lpPbm ws fuel = .ok sol ∧ sol.code = .optimal := by
  have hP : Lin.PSD lpPbm.P := by constructor <;> simp [lpPbm]
  refine qp_terminates_optimal (x := fun _ => -1) (y := fun _ => -1 / 2000) env1_sqrt env1_ldlt hP
    (by norm_num [Params.default]) (by norm_num [Params.default]) (by norm_num [Params.default]) (by norm_num [Params.default])
    (by norm_num [Params.default]) (by norm_num [Params.default]) (by norm_num [Params.default]) (fun _ => ⟨by omega, by omega⟩)
    (fun s _ => ?_) ⟨?_, ?_, ?_⟩ rfl rfl rfl rfl (i := 0) (a := -1) (b := 1) rfl rfl
  · have h : rhoVec (F := ℚ) { Params.default with epsPrimalInf := 0, epsDualInf := 0 } lpPbm s 0 > 0 :=
      rhoOf_pos (by norm_num [Params.default]) _ _
    generalize rhoVec (F := ℚ) { Params.default with epsPrimalInf := 0, epsDualInf := 0 } lpPbm s = r at h ⊢
    simp only [env1, cramer1, kkt, lpPbm]
    rw [if_neg]
    · simp
    · simp [Params.default]
      have : (0 : ℚ) < (r 0)⁻¹ := inv_pos.2 h
      have h2 := mul_self_nonneg (s.sy 0 * s.sx 0)
      nlinarith
  · intro i; simp [lpPbm, lower, upper]
  · funext j; norm_num [lpPbm, Matrix.mulVec, dotProduct]
  · intro i; simp [lpPbm]

end Verif.QP
