import Verif.Props.QPZero
import Verif.Props.QPVerdicts

/-! # Programs whose cost is not convex (C132) -/

set_option linter.unusedSectionVars false

namespace Verif.QP

open Matrix Verif.QPSpec

variable {F : Type*} [Field F] [LinearOrder F] [IsStrictOrderedRing F] {n m : ℕ}

/-- The factorisation solves the homogeneous system by zero: true of every linear solver, whatever the signs of the pivots. -/
def ZeroOk (env : Env F n) : Prop := ∀ k H slv, env.factor k H = some slv → slv 0 = 0

theorem clamp_zero {l u : Ext F} {c : F} (hc : 0 < c) (hl : lower l 0) (hu : upper u 0) : minE (maxE 0 (l.scale c)) (u.scale c) = 0 := by
  have h1 : maxE 0 (l.scale c) = 0 := by
    cases l with
    | neg => rfl
    | pos => rfl
    | fin a => exact max_eq_left (mul_nonpos_of_nonneg_of_nonpos hc.le hl)
  rw [h1]
  cases u with
  | neg => rfl
  | pos => rfl
  | fin b => exact min_eq_left (mul_nonneg hc.le hu)

theorem step_zero {alpha sigma : F} {p : Pbm F n m} {s : Scaling F n m} {rho : Fin m → F} {slv : (Fin n ⊕ Fin m → F) → (Fin n ⊕ Fin m → F)} (hz : slv 0 = 0)
    (hq : p.q = 0) (h0 : Feasible p 0) (hs : s.Pos) : step alpha sigma p s rho slv ⟨0, 0, 0⟩ = ⟨0, 0, 0⟩ := by
  have e : (Sum.elim (fun j => sigma * (0 : Fin n → F) j - s.c * s.sx j * p.q j) (fun i => (0 : Fin m → F) i - (rho i)⁻¹ * (0 : Fin m → F) i) : Fin n ⊕ Fin m → F) = 0 := by
    funext a
    rcases a with j | i <;> simp [hq]
  have hzn : ∀ i, minE (maxE (alpha * ((rho i)⁻¹ * (0 : Fin n ⊕ Fin m → F) (.inr i)) + (1 - alpha) * ((rho i)⁻¹ * (0 : Fin m → F) i) + (0 : Fin m → F) i)
      ((p.l i).scale (s.sy i))) ((p.u i).scale (s.sy i)) = 0 := fun i => by
    have h := h0 i
    rw [Matrix.mulVec_zero] at h
    simp only [Pi.zero_apply, mul_zero, add_zero]
    exact clamp_zero (hs.2.2 i) h.1 h.2
  unfold step
  simp only [e, hz, hzn]
  congr 1 <;> funext i <;> simp

/-- **C132, zero is always optimal.** If the linear cost is zero and zero is feasible, a cold start returns zero as `Optimal` after two iterations, whatever the quadratic cost. -/
theorem qp_zero_any (env : Env F n) (prm : Params F) (p : Pbm F n m) (fuel : ℕ) (hsq : SqrtPos env) (hz : ZeroOk env) (heps : 0 ≤ env.eps)
    (hq : p.q = 0) (h0 : Feasible p 0) (hea : 0 ≤ prm.epsAbs) (her : 0 ≤ prm.epsRel)
    (hsc : 2 ≤ prm.stopCheckIter) (hmax : ∀ e, prm.maxIter = some e → 2 ≤ e) (hdim : prm.scaling = true → n ≠ 0 ∧ m ≠ 0)
    (hf : ∀ s, chosenScaling env prm p = some s → env.factor m (kkt prm.sigma p s (rhoVec prm p s)) ≠ none) (hfuel : 3 ≤ fuel) :
    solveQP env prm p none fuel = .ok ⟨.optimal, 2, 0, 0, 0⟩ := by
  obtain ⟨s, hs⟩ := chosenScaling_some env prm p hdim
  have hpos := chosenScaling_pos hsq hs
  obtain ⟨slv, hslv⟩ := Option.ne_none_iff_exists'.1 (hf s hs)
  have hprep : prepare env prm p s = (slv, none) := by
    rcases prepare_cases env prm p s with ⟨h1, -⟩ | ⟨slv', h1, h2⟩
    · rw [hslv] at h1; cases h1
    · rw [hslv] at h1; cases h1
      rw [h2, precheck_of_feasible h0]
  have hfix : ∀ i, iterates prm p s slv none i = ⟨0, 0, 0⟩ := by
    intro i
    induction i with
    | zero => rfl
    | succ i ih => rw [iterates_succ, ih]; exact step_zero (hz _ _ _ hslv) hq h0 hpos
  have hverd : verdict env prm p s (iterates prm p s slv none) 1 = some .optimal := by
    have h1 : 1 % prm.stopCheckIter = 1 := Nat.mod_eq_of_lt (by omega)
    unfold verdict check checkStopping
    rw [if_pos h1]
    have : optimalTest prm p (s.unX (iterates prm p s slv none (1 + 1)).x)
        (s.unY (iterates prm p s slv none (1 + 1)).y) (s.unZ (iterates prm p s slv none (1 + 1)).z) = true := by
      have e1 : s.unX (0 : Fin n → F) = 0 := by funext i; simp [Scaling.unX]
      have e2 : s.unY (0 : Fin m → F) = 0 := by funext i; simp [Scaling.unY]
      have e3 : s.unZ (0 : Fin m → F) = 0 := by funext i; simp [Scaling.unZ]
      rw [hfix]
      dsimp only
      rw [e1, e2, e3]
      unfold optimalTest
      rw [hq]
      simp [norm_zero, hea]
    rw [this]; rfl
  have hverd0 : verdict env prm p s (iterates prm p s slv none) 0 = none := by
    unfold verdict
    rw [if_neg (by simp)]
  have hloop : loop env prm p s (step prm.alpha prm.sigma p s (rhoVec prm p s) (prepare env prm p s).1) fuel 0
        (prepare env prm p s).2 (iterates prm p s (prepare env prm p s).1 none 0) =
          .ok (2, some .optimal, iterates prm p s (prepare env prm p s).1 none 2) := by
    rw [hprep]
    obtain ⟨f, rfl⟩ : ∃ f, fuel = f + 3 := ⟨fuel - 3, by omega⟩
    have m0 : prm.maxIter ≠ some 0 := fun h => by have := hmax 0 h; omega
    have m1 : prm.maxIter ≠ some 1 := fun h => by have := hmax 1 h; omega
    rw [loop, if_pos ⟨m0, rfl⟩, if_neg (by omega), ← iterates_succ]
    unfold verdict at hverd0 hverd
    rw [hverd0, loop, if_pos ⟨m1, rfl⟩, if_neg (by omega), ← iterates_succ]
    rw [show (0 + 1) = 1 from rfl]
    rw [hverd, loop, if_neg (by simp)]
  have hfin : finish p s 2 (some .optimal) 0 0 = ⟨.optimal, 2, 0, 0, 0⟩ := by
    have e1 : s.unX (0 : Fin n → F) = 0 := by funext i; simp [Scaling.unX]
    have e2 : s.unY (0 : Fin m → F) = 0 := by funext i; simp [Scaling.unY]
    simp only [finish, e1, e2, zero_dotProduct]
    rfl
  rw [solveQP_eq, hs]
  simp only
  rw [solveScaled_of_loop hloop, hprep, hfix]
  cases hpol : prm.polish with
  | false => rw [conclude_nopolish (Or.inl hpol), hfin]
  | true =>
    unfold conclude
    rw [if_pos ⟨rfl, hpol⟩]
    have hlow : lowActive env.eps p (0 : Fin m → F) = fun _ => false := by
      funext i
      have : ¬(0 : F) < -100 * env.eps := by linarith
      simp only [lowActive, Pi.zero_apply, this, decide_false, Bool.false_and]
    have hup : upActive env.eps p (0 : Fin m → F) = fun _ => false := by
      funext i
      have : ¬100 * env.eps < (0 : F) := by linarith
      simp only [upActive, Pi.zero_apply, this, decide_false, Bool.false_and]
    have hpolish : polish env prm p s (0 : Fin m → F) = .ok none ∨ polish env prm p s (0 : Fin m → F) = .ok (some (0, 0)) := by
      unfold polish
      rw [hlow, hup, luIdx_none]
      simp only [List.mapM_nil, Option.pure_def]
      unfold polishWith
      cases hfac : env.factor ([] : List (Fin m)).length (polishH p s [] + polishReg prm.delta ([] : List (Fin m)).length) with
      | none => exact Or.inl rfl
      | some slv' =>
        right
        have hz' : slv' 0 = 0 := hz _ _ _ hfac
        have hrhs : polishRhs p s 0 ([] : List (Fin m)) = 0 := by
          funext a
          rcases a with j | j
          · simp [polishRhs, hq]
          · exact j.elim0
        have href : ∀ k, refine (symUpper (polishH p s [])) (polishRhs p s 0 ([] : List (Fin m))) slv' k 0 = 0 := by
          intro k
          induction k with
          | zero => rfl
          | succ k ih => rw [refine, hrhs]; simp only [Matrix.mulVec_zero, sub_zero, hz', add_zero]; rw [hrhs] at ih; exact ih
        simp only [href]
        rfl
    rcases hpolish with h | h <;> rw [h] <;> simp only [hfin]

theorem realEnv_zero (n : ℕ) : ZeroOk (realEnv n) := by
  intro k H slv h
  simp only [realEnv] at h
  split at h
  · cases h
    exact Matrix.mulVec_zero _
  · cases h

end Verif.QP
