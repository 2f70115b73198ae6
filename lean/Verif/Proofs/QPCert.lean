import Verif.Proofs.QPSolve
import Verif.Proofs.Linear

/-! # QP solver: what a returned code says -/

set_option linter.unusedSectionVars false

namespace Verif.QP

open Matrix Verif.QPSpec

variable {F : Type*} [Field F] [LinearOrder F] [IsStrictOrderedRing F] {n m : ℕ}

theorem prepare_cases (env : Env F n) (prm : Params F) (p : Pbm F n m) (s : Scaling F n m) :
    (env.factor m (kkt prm.sigma p s (rhoVec prm p s)) = none ∧ (prepare env prm p s).2 = some .unknown) ∨
    (∃ slv, env.factor m (kkt prm.sigma p s (rhoVec prm p s)) = some slv ∧ prepare env prm p s = (slv, precheck p)) := by
  unfold prepare
  cases h : env.factor m (kkt prm.sigma p s (rhoVec prm p s)) with
  | none => exact Or.inl ⟨rfl, rfl⟩
  | some slv => exact Or.inr ⟨slv, rfl, rfl⟩

theorem prepare_none {env : Env F n} {prm : Params F} {p : Pbm F n m} {s : Scaling F n m}
    (h : (prepare env prm p s).2 = none) :
    precheck p = none ∧ ∃ slv, env.factor m (kkt prm.sigma p s (rhoVec prm p s)) = some slv ∧ (prepare env prm p s).1 = slv := by
  rcases prepare_cases env prm p s with ⟨_, h2⟩ | ⟨slv, h1, h2⟩
  · rw [h] at h2; cases h2
  · rw [h2] at h ⊢
    exact ⟨h, slv, h1, rfl⟩

/-- What a run that ends says about its code. -/
structure RunFacts (env : Env F n) (prm : Params F) (p : Pbm F n m) (s : Scaling F n m)
    (ws : Option ((Fin n → F) × (Fin m → F))) (k : ℕ) (r : Option Status) : Prop where
  budget : ∀ j, j < k → prm.maxIter ≠ some j
  cases : (k = 0 ∧ r = (prepare env prm p s).2 ∧ (r ≠ none ∨ prm.maxIter = some 0)) ∨
    (0 < k ∧ (prepare env prm p s).2 = none ∧ prm.stopCheckIter ≠ 0 ∧
      r = verdict env prm p s (iterates prm p s (prepare env prm p s).1 ws) (k - 1) ∧ (r ≠ none ∨ prm.maxIter = some k) ∧
      ∀ j, j + 1 < k → verdict env prm p s (iterates prm p s (prepare env prm p s).1 ws) j = none)

theorem solveScaled_facts {env : Env F n} {prm : Params F} {p : Pbm F n m} {s : Scaling F n m}
    {ws : Option ((Fin n → F) × (Fin m → F))} {fuel : ℕ} {sol : Sol F n m} (h : solveScaled env prm p s ws fuel = .ok sol) :
    ∃ k r, RunFacts env prm p s ws k r ∧
      conclude env prm p s k r (iterates prm p s (prepare env prm p s).1 ws k) = .ok sol := by
  obtain ⟨k, r, h1, h2⟩ := solveScaled_ok h
  obtain ⟨-, h3, h4⟩ := loop_ok (t := iterates prm p s (prepare env prm p s).1 ws) (iterates_succ prm p s _ ws) h1
  refine ⟨k, r, ⟨fun j hj => h3 j (Nat.zero_le _) hj, ?_⟩, h2⟩
  rcases h4 with ⟨h5, h6, h7⟩ | ⟨h5, h6, h7, h8, h9, h10⟩
  · left
    subst h5
    exact ⟨rfl, h6, by rw [h6]; exact h7⟩
  · exact Or.inr ⟨h5, h6, h7, h8, h9, fun j hj => h10 j (Nat.zero_le _) hj⟩

/-- An `Optimal` verdict: the last iterate passes the test and has the box property. -/
theorem optimal_facts {env : Env F n} {prm : Params F} {p : Pbm F n m} {s : Scaling F n m}
    {ws : Option ((Fin n → F) × (Fin m → F))} {k : ℕ} (hs : s.Pos) (hr : 0 < prm.rho)
    (h : RunFacts env prm p s ws k (some .optimal)) :
    ∃ it, it = iterates prm p s (prepare env prm p s).1 ws k ∧ InBox p (s.unZ it.z) ∧
      Complementary p (s.unZ it.z) (s.unY it.y) ∧ optimalTest prm p (s.unX it.x) (s.unY it.y) (s.unZ it.z) = true := by
  rcases h.cases with ⟨_, h2, _⟩ | ⟨hk, h2, _, h3, _, _⟩
  · exfalso
    rcases prepare_cases env prm p s with ⟨_, h4⟩ | ⟨slv, _, h4⟩
    · rw [h4] at h2; cases h2
    · rw [h4] at h2
      have := precheck_code h2.symm
      cases this
  · obtain ⟨k, rfl⟩ : ∃ k', k = k' + 1 := ⟨k - 1, by omega⟩
    have hrow := precheck_none (prepare_none h2).1
    have hb := step_box (alpha := prm.alpha) (sigma := prm.sigma) (rho := rhoVec prm p s) (slv := (prepare env prm p s).1)
      hrow hs.2.2 hs.1 (fun i => rhoOf_pos hr _ _) (iterates prm p s (prepare env prm p s).1 ws k)
    rw [← iterates_succ] at hb
    refine ⟨_, rfl, hb.1, hb.2, ?_⟩
    unfold verdict at h3
    simp only [Nat.add_sub_cancel] at h3
    split at h3
    · rcases check_codes h3.symm with ⟨_, h4⟩ | ⟨h4, _⟩ | ⟨h4, _⟩ | ⟨h4, _⟩
      · exact h4
      · cases h4
      · cases h4
      · cases h4
    · cases h3

theorem code_optimal {r : Option Status} (h : r.getD .maxIterations = .optimal) : r = some .optimal := by
  cases r with
  | none => cases h
  | some c => simp only [Option.getD_some] at h; rw [h]

/-! ### Convexity -/

theorem lower_le {b : Ext F} {a : F} (h : b = .fin a) {w : F} (hw : lower b w) : a ≤ w := by subst h; exact hw
theorem upper_le {b : Ext F} {a : F} (h : b = .fin a) {w : F} (hw : upper b w) : w ≤ a := by subst h; exact hw

/-- Complementary multipliers support the box. -/
theorem compl_support {p : Pbm F n m} {z y w : Fin m → F} (h : Complementary p z y) (hw : InBox p w) :
    y ⬝ᵥ w ≤ y ⬝ᵥ z := by
  simp only [dotProduct]
  refine Finset.sum_le_sum fun i _ => ?_
  rcases lt_trichotomy (y i) 0 with hy | hy | hy
  · have := lower_le ((h i).2 hy) (hw i).1
    nlinarith
  · rw [hy]; simp
  · have := upper_le ((h i).1 hy) (hw i).2
    nlinarith

theorem dot_abs_le {k : ℕ} {a b : Fin k → F} {r : F} (h : ∀ i, |a i| ≤ r) : a ⬝ᵥ b ≤ r * ∑ i, |b i| := by
  rw [Finset.mul_sum]
  simp only [dotProduct]
  refine Finset.sum_le_sum fun i _ => ?_
  calc a i * b i ≤ |a i * b i| := le_abs_self _
    _ = |a i| * |b i| := abs_mul _ _
    _ ≤ r * |b i| := mul_le_mul_of_nonneg_right (h i) (abs_nonneg _)

theorem cost_gap {p : Pbm F n m} (hP : Lin.PSD p.P) (x w : Fin n → F) :
    cost p x - cost p w ≤ (p.P *ᵥ x + p.q) ⬝ᵥ (x - w) := by
  have h := hP.2 (x - w)
  have hsym : w ⬝ᵥ p.P *ᵥ x = x ⬝ᵥ p.P *ᵥ w := by
    rw [Matrix.dotProduct_mulVec, ← Matrix.mulVec_transpose, hP.1.eq, dotProduct_comm]
  simp only [cost, Matrix.mulVec_sub, dotProduct_sub, sub_dotProduct, add_dotProduct] at *
  rw [dotProduct_comm (p.P *ᵥ x) x, dotProduct_comm (p.P *ᵥ x) w]
  linarith

/-- Suboptimality from residuals. -/
theorem gap_bound {p : Pbm F n m} (hP : Lin.PSD p.P) {x : Fin n → F} {y z : Fin m → F} {rp rd : F}
    (hc : Complementary p z y) (hp : ∀ i, |(p.A *ᵥ x) i - z i| ≤ rp)
    (hd : ∀ j, |(p.P *ᵥ x) j + p.q j + (p.Aᵀ *ᵥ y) j| ≤ rd) {w : Fin n → F} (hw : Feasible p w) :
    cost p x - cost p w ≤ rd * ∑ j, |w j - x j| + rp * ∑ i, |y i| := by
  have h1 := cost_gap hP x w
  have h2 := compl_support hc hw
  have e : (p.P *ᵥ x + p.q) ⬝ᵥ (x - w) =
      (p.P *ᵥ x + p.q + p.Aᵀ *ᵥ y) ⬝ᵥ (x - w) + (z - p.A *ᵥ x) ⬝ᵥ y + (y ⬝ᵥ p.A *ᵥ w - y ⬝ᵥ z) := by
    have e1 : (p.Aᵀ *ᵥ y) ⬝ᵥ (x - w) = y ⬝ᵥ p.A *ᵥ x - y ⬝ᵥ p.A *ᵥ w := by
      rw [Matrix.mulVec_transpose, ← Matrix.dotProduct_mulVec, Matrix.mulVec_sub, dotProduct_sub]
    rw [add_dotProduct _ (p.Aᵀ *ᵥ y), e1, sub_dotProduct, dotProduct_comm z y, dotProduct_comm (p.A *ᵥ x) y]
    ring
  have h3 : (p.P *ᵥ x + p.q + p.Aᵀ *ᵥ y) ⬝ᵥ (x - w) ≤ rd * ∑ j, |(x - w) j| := dot_abs_le hd
  have h4 : (z - p.A *ᵥ x) ⬝ᵥ y ≤ rp * ∑ i, |y i| :=
    dot_abs_le (fun i => by rw [Pi.sub_apply, abs_sub_comm]; exact hp i)
  have h5 : ∑ j, |(x - w) j| = ∑ j, |w j - x j| := Finset.sum_congr rfl fun j _ => by rw [Pi.sub_apply, abs_sub_comm]
  rw [h5] at h3
  linarith

/-- An exact KKT point of a convex problem is a global minimiser. -/
theorem kkt_minimiser {p : Pbm F n m} (hP : Lin.PSD p.P) {x : Fin n → F} {y : Fin m → F} (h : KKT p x y) :
    Minimiser p x := by
  refine ⟨h.1, fun w hw => ?_⟩
  have := gap_bound (x := x) (rp := 0) (rd := 0) hP h.2.2 (by simp) (fun j => by
    have := congrFun h.2.1 j
    simp only [Pi.add_apply, Pi.zero_apply] at this
    rw [this]; simp) hw
  linarith

end Verif.QP
