import Verif.Proofs.FrankWolfe
import Verif.Props.QPVerdicts

/-!
# Convex programs fall into three classes, and what the solver does on each (C105)

A convex quadratic program over the reals has no feasible point, or is unbounded below, or has a minimiser. The three
kinds of certificate that the solver looks for exist in exactly these cases: a Farkas certificate, a direction of
unboundedness, and a pair that satisfies the optimality conditions. With this the theorems on the solver need no
certificate as a hypothesis: feasibility, boundedness or the existence of a minimiser suffice.
-/

set_option linter.unusedSectionVars false

namespace Verif.QP

open Matrix Verif.QPSpec Filter Topology

variable {n m : ℕ} {env : Env ℝ n} {prm : Params ℝ} {p : Pbm ℝ n m} {ws : Option ((Fin n → ℝ) × (Fin m → ℝ))}
  {s : Scaling ℝ n m} {slv : (Fin n ⊕ Fin m → ℝ) → (Fin n ⊕ Fin m → ℝ)} {fuel : ℕ} {sol : Sol ℝ n m}

/-- A box is empty exactly when one of its rows is. -/
theorem box_nonempty_iff : (∃ w, InBox p w) ↔ ∀ i, ¬ TriviallyEmpty (p.l i) (p.u i) := by
  constructor
  · rintro ⟨w, hw⟩ i h
    exact triviallyEmpty_iff.1 h (w i) (hw i)
  · intro h
    have h' : ∀ i, ∃ w, lower (p.l i) w ∧ upper (p.u i) w := fun i => by
      by_contra hc
      exact h i (triviallyEmpty_iff.2 fun w hw => hc ⟨w, hw⟩)
    choose w hw using h'
    exact ⟨w, hw⟩

/-- **C105, infeasible programs** are those with an empty row or a Farkas certificate. -/
theorem qp_infeasible_iff : (∀ x, ¬ Feasible p x) ↔ (∃ i, TriviallyEmpty (p.l i) (p.u i)) ∨ ∃ f, Farkas p f := by
  constructor
  · intro h
    by_cases hb : ∃ w, InBox p w
    · obtain ⟨w, hw⟩ := hb
      exact Or.inr (infeasible_farkas hw h)
    · rw [box_nonempty_iff] at hb
      push Not at hb
      exact Or.inl hb
  · rintro (⟨i, hi⟩ | ⟨f, hf⟩) x hx
    · exact triviallyEmpty_iff.1 hi _ (hx i)
    · exact farkas_infeasible hf x hx

/-- **C105, solvable programs** are those with multipliers; the same points `x` occur. -/
theorem qp_minimiser_iff (hP : Lin.PSD p.P) (x : Fin n → ℝ) : Minimiser p x ↔ ∃ y, KKT p x y :=
  ⟨minimiser_kkt hP.1, fun ⟨_, hy⟩ => kkt_minimiser hP hy⟩

/-- **C105, unbounded programs** are the feasible ones with a direction of unboundedness. -/
theorem qp_unbounded_iff (hP : Lin.PSD p.P) : Unbounded p ↔ (∃ x, Feasible p x) ∧ ∃ d, Recession p d := by
  constructor
  · intro h
    obtain ⟨x0, hx0, -⟩ := h 0
    refine ⟨⟨x0, hx0⟩, ?_⟩
    by_contra hno
    obtain ⟨x, hx⟩ := minimiser_exists hP hx0 hno
    obtain ⟨w, hw, hlt⟩ := h (cost p x)
    exact absurd (hx.2 w hw) (not_le.2 hlt)
  · rintro ⟨⟨x, hx⟩, d, hd⟩
    exact recession_unbounded hP.1 hd hx

/-- **C105, the classes.** Every convex program is infeasible, unbounded or has a minimiser, and no two of them. -/
theorem qp_classes (hP : Lin.PSD p.P) :
    ((∀ x, ¬ Feasible p x) ∨ Unbounded p ∨ ∃ x, Minimiser p x) ∧
    ¬ ((∀ x, ¬ Feasible p x) ∧ Unbounded p) ∧ ¬ ((∀ x, ¬ Feasible p x) ∧ ∃ x, Minimiser p x) ∧
    ¬ (Unbounded p ∧ ∃ x, Minimiser p x) := by
  refine ⟨?_, ?_, ?_, ?_⟩
  · by_cases hf : ∃ x, Feasible p x
    · by_cases hd : ∃ d, Recession p d
      · exact Or.inr (Or.inl ((qp_unbounded_iff hP).2 ⟨hf, hd⟩))
      · obtain ⟨x, hx⟩ := hf
        exact Or.inr (Or.inr (minimiser_exists hP hx hd))
    · exact Or.inl fun x hx => hf ⟨x, hx⟩
  · rintro ⟨h1, h2⟩
    obtain ⟨x, hx, -⟩ := h2 0
    exact h1 x hx
  · rintro ⟨h1, x, hx⟩
    exact h1 x hx.1
  · rintro ⟨h1, x, hx⟩
    obtain ⟨w, hw, hlt⟩ := h1 (cost p x)
    exact absurd (hx.2 w hw) (not_le.2 hlt)

/-- Convex programs whose cost is bounded below on a nonempty feasible set have a minimiser. -/
theorem qp_solvable (hP : Lin.PSD p.P) {x0 : Fin n → ℝ} (hx0 : Feasible p x0) {b : ℝ} (hb : ∀ x, Feasible p x → b ≤ cost p x) :
    ∃ x, Minimiser p x := by
  rcases (qp_classes hP).1 with h | h | h
  · exact absurd hx0 (h x0)
  · obtain ⟨x, hx, hlt⟩ := h b
    exact absurd (hb x hx) (not_le.2 hlt)
  · exact h

/-! ### What the solver does -/

/-- **C105, solvable programs.** If the program has a minimiser, `solve_qp` returns, without any limit on iterations or time. -/
theorem qp_terminates_solvable (hsq : SqrtPos env) (hl : LdltOk env) (hP : Lin.PSD p.P) (ha : 0 < prm.alpha)
    (ha' : prm.alpha < 2) (hsig : 0 < prm.sigma) (hr : 0 < prm.rho) (hea : 0 < prm.epsAbs) (her : 0 ≤ prm.epsRel)
    (hsc : 2 ≤ prm.stopCheckIter) (hdim : prm.scaling = true → n ≠ 0 ∧ m ≠ 0)
    (hf : ∀ s : Scaling ℝ n m, s.Pos → env.factor m (kkt prm.sigma p s (rhoVec prm p s)) ≠ none)
    (hmin : ∃ x, Minimiser p x) :
    ∃ N, ∀ fuel, N ≤ fuel → ∃ sol, solveQP env prm p ws fuel = .ok sol ∧
      (prm.maxIter = none → prm.maxTime = none →
        sol.code = .optimal ∨ sol.code = .primalInfeasible ∨ sol.code = .dualInfeasible) := by
  obtain ⟨x, hx⟩ := hmin
  obtain ⟨y, hy⟩ := minimiser_kkt hP.1 hx
  exact qp_terminates hsq hl hP ha ha' hsig hr hea her hsc hdim hf hy

/-- **C105, convergence.** The iterates converge exactly if the program has a minimiser, and whatever they converge to is a
minimiser with its multipliers. -/
theorem qp_converges_iff (h : Regular env prm p s slv) (hrow : ∀ i, ¬ TriviallyEmpty (p.l i) (p.u i)) :
    ((∃ x, Minimiser p x) ↔ ∃ (x' : Fin n → ℝ) (y' : Fin m → ℝ),
      Tendsto (fun k => s.unX (iterates prm p s slv ws k).x) atTop (𝓝 x') ∧
      Tendsto (fun k => s.unY (iterates prm p s slv ws k).y) atTop (𝓝 y')) ∧
    ∀ (x' : Fin n → ℝ) (y' : Fin m → ℝ), Tendsto (fun k => s.unX (iterates prm p s slv ws k).x) atTop (𝓝 x') →
      Tendsto (fun k => s.unY (iterates prm p s slv ws k).y) atTop (𝓝 y') → Minimiser p x' ∧ KKT p x' y' := by
  obtain ⟨w, hw⟩ := box_nonempty_iff.2 hrow
  have hfwd : (∃ x, Minimiser p x) → ∃ (x' : Fin n → ℝ) (y' : Fin m → ℝ),
      (Tendsto (fun k => s.unX (iterates prm p s slv ws k).x) atTop (𝓝 x') ∧
      Tendsto (fun k => s.unY (iterates prm p s slv ws k).y) atTop (𝓝 y')) ∧ Minimiser p x' ∧ KKT p x' y' := by
    rintro ⟨x, hx⟩
    obtain ⟨y, hy⟩ := minimiser_kkt h.convex.1 hx
    obtain ⟨x', y', h1, h2, h3, h4, -⟩ := qp_iterates_converge (ws := ws) h hy
    exact ⟨x', y', ⟨h3, h4⟩, h2, h1⟩
  have hbwd : ∀ (x' : Fin n → ℝ) (y' : Fin m → ℝ), Tendsto (fun k => s.unX (iterates prm p s slv ws k).x) atTop (𝓝 x') →
      Tendsto (fun k => s.unY (iterates prm p s slv ws k).y) atTop (𝓝 y') → ∃ x, Minimiser p x := by
    intro x' y' h1 h2
    obtain ⟨d, e, l1, l2, -, -, h3, h4, -⟩ := qp_differences_converge (ws := ws) h hw
    have e1 : d = 0 := by
      refine tendsto_nhds_unique l1 ?_
      have := (h1.comp (tendsto_add_atTop_nat 1)).sub h1
      rw [sub_self] at this
      refine this.congr fun k => ?_
      funext j; simp [Scaling.unX]; ring
    have e2 : e = 0 := by
      refine tendsto_nhds_unique l2 ?_
      have := (h2.comp (tendsto_add_atTop_nat 1)).sub h2
      rw [sub_self] at this
      refine this.congr fun k => ?_
      funext j; simp [Scaling.unY]; ring
    have hfe : ∃ x, Feasible p x := by
      by_contra hc
      exact h4 (infeasible_farkas hw fun x hx => hc ⟨x, hx⟩) e2
    obtain ⟨x, hx⟩ := hfe
    exact minimiser_exists h.convex hx fun hd => h3 hd e1
  refine ⟨⟨fun hm => ?_, fun ⟨x', y', h1, h2⟩ => hbwd x' y' h1 h2⟩, fun x' y' h1 h2 => ?_⟩
  · obtain ⟨x', y', h1, -⟩ := hfwd hm
    exact ⟨x', y', h1⟩
  · obtain ⟨a, b, ⟨h3, h4⟩, h5⟩ := hfwd (hbwd x' y' h1 h2)
    rw [tendsto_nhds_unique h1 h3, tendsto_nhds_unique h2 h4]
    exact h5

/-- **C105, infeasible programs.** If no row is empty and no point is feasible, every check from some iteration on passes
the primal infeasibility test. -/
theorem qp_infeasible_recognised (h : Regular env prm p s slv) (hep : 0 < prm.epsPrimalInf)
    (hrow : ∀ i, ¬ TriviallyEmpty (p.l i) (p.u i)) (hinf : ∀ x, ¬ Feasible p x) : ∃ N, ∀ k, N ≤ k →
      primalInfTest prm p (s.unY ((iterates prm p s slv ws (k + 1)).y - (iterates prm p s slv ws k).y)) = true := by
  obtain ⟨w, hw⟩ := box_nonempty_iff.2 hrow
  obtain ⟨f, hf⟩ := infeasible_farkas hw hinf
  exact qp_infeasible_detected h hep hw hf

/-- **C105, unbounded programs** in which each row has a bound: every check from some iteration on passes the dual
infeasibility test. For rows without bounds see `qp_free_row_diverges`. -/
theorem qp_unbounded_recognised (h : Regular env prm p s slv) (hed : 0 < prm.epsDualInf)
    (hfree : ∀ i, p.l i ≠ .neg ∨ p.u i ≠ .pos) (hunb : Unbounded p) : ∃ N, ∀ k, N ≤ k →
      dualInfTest prm p (s.unX ((iterates prm p s slv ws (k + 1)).x - (iterates prm p s slv ws k).x)) = true := by
  obtain ⟨⟨x, hx⟩, d, hd⟩ := (qp_unbounded_iff h.convex).1 hunb
  exact qp_unbounded_detected_partial h hed (w := p.A *ᵥ x) hx hfree hd

/-! ### A program without solution is not reported as solved -/

theorem abs_dot_le {k : ℕ} {v w : Fin k → ℝ} {r : ℝ} (h : ∀ i, |w i| ≤ r) : |v ⬝ᵥ w| ≤ (∑ i, |v i|) * r := by
  rw [Finset.sum_mul]
  refine (Finset.abs_sum_le_sum_abs _ _).trans (Finset.sum_le_sum fun i _ => ?_)
  rw [abs_mul]
  exact mul_le_mul_of_nonneg_left (h i) (abs_nonneg _)

/-- A Farkas certificate bounds the primal residual from below. -/
theorem farkas_residual {f : Fin m → ℝ} (hf : Farkas p f) {x : Fin n → ℝ} {z : Fin m → ℝ} (hz : InBox p z) {r : ℝ}
    (hr : ∀ i, |(p.A *ᵥ x) i - z i| ≤ r) : -support p f ≤ (∑ i, |f i|) * r := by
  have h1 := dot_le_support hf.2.2 hz
  have h2 : f ⬝ᵥ (p.A *ᵥ x) = 0 := by
    rw [Matrix.dotProduct_mulVec, ← Matrix.mulVec_transpose, hf.1, zero_dotProduct]
  have h3 := abs_dot_le (v := f) (w := p.A *ᵥ x - z) hr
  rw [dotProduct_sub, h2] at h3
  have h4 := le_abs_self (0 - f ⬝ᵥ z)
  linarith

/-- A direction of unboundedness bounds the dual residual from below. -/
theorem recession_residual (hP : p.P.IsSymm) {d : Fin n → ℝ} (hd : Recession p d) {x : Fin n → ℝ} {z y : Fin m → ℝ}
    (hc : Complementary p z y) {r : ℝ} (hr : ∀ j, |(p.P *ᵥ x) j + p.q j + (p.Aᵀ *ᵥ y) j| ≤ r) :
    -(p.q ⬝ᵥ d) ≤ (∑ j, |d j|) * r := by
  have h1 := abs_dot_le (v := d) (w := p.P *ᵥ x + p.q + p.Aᵀ *ᵥ y) hr
  have e1 : d ⬝ᵥ (p.P *ᵥ x) = 0 := by
    rw [Matrix.dotProduct_mulVec, ← Matrix.mulVec_transpose, hP.eq, hd.1, zero_dotProduct]
  have e2 : d ⬝ᵥ (p.Aᵀ *ᵥ y) = y ⬝ᵥ (p.A *ᵥ d) := by
    rw [Matrix.dotProduct_mulVec, Matrix.vecMul_transpose, dotProduct_comm]
  have h2 : y ⬝ᵥ (p.A *ᵥ d) ≤ 0 := by
    refine Finset.sum_nonpos fun i _ => ?_
    rcases lt_trichotomy (y i) 0 with h | h | h
    · exact mul_nonpos_of_nonpos_of_nonneg h.le ((hd.2.2 i).2 (by rw [(hc i).2 h]; simp))
    · rw [h, zero_mul]
    · exact mul_nonpos_of_nonneg_of_nonpos h.le ((hd.2.2 i).1 (by rw [(hc i).1 h]; simp))
  rw [dotProduct_add, dotProduct_add, e1, e2, dotProduct_comm d p.q] at h1
  have h4 := neg_abs_le (0 + p.q ⬝ᵥ d + y ⬝ᵥ p.A *ᵥ d)
  linarith

theorem sum_abs_pos {k : ℕ} {v : Fin k → ℝ} (h : v ≠ 0) : 0 < ∑ i, |v i| := by
  obtain ⟨i, hi⟩ := Function.ne_iff.1 h
  exact lt_of_lt_of_le (abs_pos.2 hi) (Finset.single_le_sum (f := fun i => |v i|) (fun i _ => abs_nonneg _) (Finset.mem_univ i))

/-- **C105, no wrong success.** For each convex program there is a tolerance such that, with an absolute tolerance below it
and relative tolerance zero, `Optimal` is returned only if the program has a minimiser. -/
theorem qp_optimal_only_solvable (hP : Lin.PSD p.P) : ∃ e : ℝ, 0 < e ∧
    ∀ (env : Env ℝ n) (prm : Params ℝ) (ws : Option ((Fin n → ℝ) × (Fin m → ℝ))) (fuel : ℕ) (sol : Sol ℝ n m),
      SqrtPos env → 0 < prm.rho → 0 ≤ env.eps → prm.epsRel = 0 → prm.epsAbs < e → solveQP env prm p ws fuel = .ok sol →
      sol.code = .optimal → ∃ x, Minimiser p x := by
  have key : ∀ e : ℝ, (∀ (x : Fin n → ℝ) (z y : Fin m → ℝ) (r : ℝ), InBox p z → Complementary p z y →
      (∀ i, |(p.A *ᵥ x) i - z i| ≤ r) → (∀ j, |(p.P *ᵥ x) j + p.q j + (p.Aᵀ *ᵥ y) j| ≤ r) → r < e → False) →
      ∀ (env : Env ℝ n) (prm : Params ℝ) (ws : Option ((Fin n → ℝ) × (Fin m → ℝ))) (fuel : ℕ) (sol : Sol ℝ n m),
      SqrtPos env → 0 < prm.rho → 0 ≤ env.eps → prm.epsRel = 0 → prm.epsAbs < e → solveQP env prm p ws fuel = .ok sol →
      sol.code = .optimal → ∃ x, Minimiser p x := by
    intro e he env prm ws fuel sol h1 h2 h3 h4 h5 h6 h7
    obtain ⟨s, x, y, -, ⟨z, rp, rd, hz, hc, ⟨a, b, c, -, -, -, hrp⟩, hp, ⟨a', b', c', -, -, -, hrd⟩, hd⟩, -⟩ :=
      qp_polished_optimal_partial h1 h2 hP.1 h3 h6 h7
    rw [h4, zero_mul, add_zero] at hrp hrd
    subst hrp hrd
    exact (he _ z _ prm.epsAbs hz hc hp hd h5).elim
  rcases (qp_classes hP).1 with h | h | h
  · rcases qp_infeasible_iff.1 h with ⟨i, hi⟩ | ⟨f, hf⟩
    · exact ⟨1, one_pos, key 1 fun x z y r hz _ _ _ _ => triviallyEmpty_iff.1 hi _ (hz i)⟩
    · have hne : f ≠ 0 := by
        rintro rfl
        have := hf.2.1
        rw [show support p 0 = 0 from Finset.sum_eq_zero fun i _ => by cases p.u i <;> cases p.l i <;> simp] at this
        exact lt_irrefl _ this
      have hS := sum_abs_pos hne
      refine ⟨-support p f / ∑ i, |f i|, div_pos (neg_pos.2 hf.2.1) hS, key _ fun x z y r hz _ hp _ hr => ?_⟩
      have h1 := farkas_residual hf hz hp
      rw [lt_div_iff₀ hS] at hr
      linarith
  · obtain ⟨-, d, hd⟩ := (qp_unbounded_iff hP).1 h
    have hne : d ≠ 0 := by
      rintro rfl
      have := hd.2.1
      rw [dotProduct_zero] at this
      exact lt_irrefl _ this
    have hS := sum_abs_pos hne
    refine ⟨-(p.q ⬝ᵥ d) / ∑ i, |d i|, div_pos (neg_pos.2 hd.2.1) hS, key _ fun x z y r _ hc _ hq hr => ?_⟩
    have h1 := recession_residual hP.1 hd hc hq
    rw [lt_div_iff₀ hS] at hr
    linarith
  · exact ⟨1, one_pos, fun _ _ _ _ _ _ _ _ _ _ _ _ => h⟩

/-! ### Examples -/

/-- Minimise `x ^ 2 / 2 - 2 x` subject to `x ≤ 1`: solvable, by `x = 1`, and the multiplier is 1. -/
example : let p : Pbm ℝ 1 1 := ⟨fun _ _ => 1, fun _ => -2, fun _ _ => 1, fun _ => .neg, fun _ => .fin 1⟩
    Lin.PSD p.P ∧ Minimiser p (fun _ => 1) ∧ ∀ y, KKT p (fun _ => 1) y → y 0 = 1 := by
  intro p
  have hP : Lin.PSD p.P := ⟨rfl, fun v => by simp [p, dotProduct, mulVec]; exact mul_self_nonneg _⟩
  refine ⟨hP, (qp_minimiser_iff hP _).2 ⟨fun _ => 1, ?_, ?_, ?_⟩, fun y hy => ?_⟩
  · intro i; exact ⟨trivial, by simp [p, upper, mulVec, dotProduct]⟩
  · funext j; simp [p, mulVec, dotProduct, transpose]; norm_num
  · intro i; exact ⟨fun _ => by simp [p, mulVec, dotProduct], fun h => absurd h (by norm_num)⟩
  · have := congrFun hy.2.1 0
    simp [p, mulVec, dotProduct, transpose] at this
    linarith

/-- `x ≤ 0` and `x ≥ 1`: no row is empty, no point is feasible. -/
example : let p : Pbm ℝ 1 2 := ⟨fun _ _ => 0, fun _ => 0, fun _ _ => 1, fun i => if i = 0 then .neg else .fin 1,
      fun i => if i = 0 then .fin 0 else .pos⟩
    (∀ i, ¬ TriviallyEmpty (p.l i) (p.u i)) ∧ ∀ x, ¬ Feasible p x := by
  intro p
  refine ⟨fun i => ?_, fun x hx => ?_⟩
  · fin_cases i <;> simp [p, TriviallyEmpty]
  · have h0 := (hx 0).2
    have h1 := (hx 1).1
    simp [p, upper, lower, mulVec, dotProduct] at h0 h1
    linarith

/-- Minimise `-x` subject to `x ≥ 0`: unbounded, and the row has a bound. -/
example : let p : Pbm ℝ 1 1 := ⟨fun _ _ => 0, fun _ => -1, fun _ _ => 1, fun _ => .fin 0, fun _ => .pos⟩
    Lin.PSD p.P ∧ Unbounded p ∧ ∀ i, p.l i ≠ .neg ∨ p.u i ≠ .pos := by
  intro p
  have hP : Lin.PSD p.P := ⟨rfl, fun v => by simp [p, dotProduct, mulVec]⟩
  refine ⟨hP, (qp_unbounded_iff hP).2 ⟨⟨0, fun i => ⟨by rw [mulVec_zero]; exact le_refl (0:ℝ), trivial⟩⟩, fun _ => 1, ?_, ?_, fun i => ⟨?_, ?_⟩⟩,
    fun i => Or.inl (by simp [p])⟩
  · funext j; simp [p, mulVec, dotProduct]
  · simp [p, dotProduct]
  · intro h; exact absurd rfl h
  · intro _; simp [p, mulVec, dotProduct]

end Verif.QP
