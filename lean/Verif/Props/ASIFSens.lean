import Verif.Props.ASIF
import Mathlib.Analysis.Calculus.FDeriv.Comp
import Mathlib.Analysis.Calculus.FDeriv.Add
import Mathlib.Analysis.Calculus.FDeriv.Pi
import Mathlib.Analysis.Calculus.Deriv.Basic
import Mathlib.Analysis.Calculus.Deriv.Add
import Mathlib.Analysis.Calculus.Deriv.Mul
import Mathlib.Analysis.Calculus.Deriv.Pow
import Mathlib.Analysis.Calculus.Deriv.Comp
import Mathlib.Analysis.Calculus.Deriv.Prod
import Mathlib.Analysis.Matrix.Normed
import Mathlib.Analysis.SpecialFunctions.Exp
import Mathlib.Topology.Algebra.Module.FiniteDimension
import Mathlib.LinearAlgebra.Matrix.ToLin

/-!
# The sensitivity of the safety filter (C49)
-/

set_option linter.unusedSectionVars false

namespace Verif.ASIF

variable {U : Type*} {nx nu : ℕ}

/-- A matrix as a continuous linear map. -/
noncomputable def lin {m n : ℕ} (A : Matrix (Fin m) (Fin n) ℝ) : (Fin n → ℝ) →L[ℝ] (Fin m → ℝ) := (Matrix.toLin' A).toContinuousLinearMap

theorem lin_apply {m n : ℕ} (A : Matrix (Fin m) (Fin n) ℝ) (v : Fin n → ℝ) : lin A v = A.mulVec v := by
  simp [lin]

/-- States in a vector space. -/
structure FlatState (env : Env (Fin nx → ℝ) U ℝ nx nu) : Prop where
  plus : ∀ x v, env.xplus x v = x + v
  ad : ∀ v, env.ad v = 0

/-- `b.dcl` is the derivative of the closed loop by the state. -/
def HasClosedLoop (d : Dyn (Fin nx → ℝ) U ℝ nx nu) (b : Backup (Fin nx → ℝ) U ℝ nx) : Prop :=
  ∀ t x, HasFDerivAt (fun x => d.f x (b.bu t x)) (lin (b.dcl t x)) x

theorem exactSens_mul (env : Env (Fin nx → ℝ) U ℝ nx nu) (d : Dyn (Fin nx → ℝ) U ℝ nx nu) (b : Backup (Fin nx → ℝ) U ℝ nx) (l : List ℝ) (t : ℝ)
    (x : Fin nx → ℝ) (S : Matrix (Fin nx) (Fin nx) ℝ) : exactSens env d b l t x S = exactSens env d b l t x 1 * S := by
  induction l generalizing t x S with
  | nil => simp [exactSens]
  | cons e l ih =>
    rw [exactSens, exactSens, ih _ _ (S + _), ih _ _ (1 + _), Matrix.mul_assoc]
    congr 1
    rw [Matrix.mul_one, Matrix.add_mul, Matrix.one_mul, Matrix.smul_mul]

/-- The derivative of the integrated flow by the initial state is `exactSens`. -/
theorem asif_exact_sens (env : Env (Fin nx → ℝ) U ℝ nx nu) (he : FlatState env) (d : Dyn (Fin nx → ℝ) U ℝ nx nu) (b : Backup (Fin nx → ℝ) U ℝ nx)
    (hd : HasClosedLoop d b) (l : List ℝ) (t : ℝ) (x : Fin nx → ℝ) :
    HasFDerivAt (fun x => march env d b l t x) (lin (exactSens env d b l t x 1)) x := by
  induction l generalizing t x with
  | nil =>
    have : lin (1 : Matrix (Fin nx) (Fin nx) ℝ) = ContinuousLinearMap.id ℝ _ := by ext v; simp [lin_apply]
    simp only [march, exactSens, this]
    exact hasFDerivAt_id x
  | cons e l ih =>
    simp only [march, exactSens, he.plus]
    have h1 : HasFDerivAt (fun x => x + e • d.f x (b.bu t x)) (ContinuousLinearMap.id ℝ _ + e • lin (b.dcl t x)) x :=
      (hasFDerivAt_id x).add ((hd t x).const_smul e)
    have h2 := (ih (t + e) (x + e • d.f x (b.bu t x))).comp x h1
    have : lin (exactSens env d b l (t + e) (x + e • d.f x (b.bu t x)) (1 + e • (b.dcl t x * 1))) =
        (lin (exactSens env d b l (t + e) (x + e • d.f x (b.bu t x)) 1)).comp (ContinuousLinearMap.id ℝ _ + e • lin (b.dcl t x)) := by
      ext v i
      rw [exactSens_mul]
      simp only [lin_apply, ContinuousLinearMap.comp_apply, ContinuousLinearMap.add_apply, ContinuousLinearMap.smul_apply,
        ContinuousLinearMap.id_apply, ← Matrix.mulVec_mulVec, Matrix.mul_one, Matrix.add_mulVec, Matrix.one_mulVec, Matrix.smul_mulVec]
    rw [this]
    exact h2

/-- If the derivative of the closed loop does not depend on the state (an affine closed loop), the filter's sensitivity is the derivative
of the integrated flow. -/
theorem asif_sens_partial (env : Env (Fin nx → ℝ) U ℝ nx nu) (he : FlatState env) (d : Dyn (Fin nx → ℝ) U ℝ nx nu) (b : Backup (Fin nx → ℝ) U ℝ nx)
    (hd : HasClosedLoop d b) (ha : ∀ t x y, b.dcl t x = b.dcl t y) (l : List ℝ) (t : ℝ) (x : Fin nx → ℝ) :
    HasFDerivAt (fun x => march env d b l t x) (lin (sens env d b l t x 1)) x := by
  have : ∀ S, sens env d b l t x S = exactSens env d b l t x S := by
    induction l generalizing t x with
    | nil => intro S; rfl
    | cons e l ih =>
      intro S
      rw [sens, exactSens]
      rw [ih, he.ad, sub_zero, ha t _ x]
  rw [this]
  exact asif_exact_sens env he d b hd l t x

section

attribute [local instance] Matrix.linftyOpNormedRing Matrix.linftyOpNormedAlgebra

theorem exactSens_norm (env : Env (Fin nx → ℝ) U ℝ nx nu) (d : Dyn (Fin nx → ℝ) U ℝ nx nu) (b : Backup (Fin nx → ℝ) U ℝ nx) (L : ℝ)
    (hL : ∀ t x, ‖b.dcl t x‖ ≤ L) (e : ℝ) (h0 : 0 ≤ e) (t : ℝ) (x : Fin nx → ℝ) (S : Matrix (Fin nx) (Fin nx) ℝ) :
    ‖S + e • (b.dcl t x * S)‖ ≤ (1 + e * L) * ‖S‖ := by
  have h1 : ‖b.dcl t x * S‖ ≤ L * ‖S‖ := (norm_mul_le _ _).trans (mul_le_mul_of_nonneg_right (hL t x) (norm_nonneg _))
  calc ‖S + e • (b.dcl t x * S)‖ ≤ ‖S‖ + ‖e • (b.dcl t x * S)‖ := norm_add_le _ _
    _ = ‖S‖ + e * ‖b.dcl t x * S‖ := by rw [norm_smul, Real.norm_of_nonneg h0]
    _ ≤ ‖S‖ + e * (L * ‖S‖) := by gcongr
    _ = (1 + e * L) * ‖S‖ := by ring

/-- Error of the filter's sensitivity, in the row-sum norm: with closed-loop velocity bounded by `V` and its derivative bounded by `L` and
Lipschitz with constant `M`, it is at most `exp (L T) T M V` times the step length. -/
theorem asif_sens_error (env : Env (Fin nx → ℝ) U ℝ nx nu) (he : FlatState env) (d : Dyn (Fin nx → ℝ) U ℝ nx nu) (b : Backup (Fin nx → ℝ) U ℝ nx)
    (L M V dt : ℝ) (hM : 0 ≤ M) (hV : ∀ t x, ‖d.f x (b.bu t x)‖ ≤ V) (hL : ∀ t x, ‖b.dcl t x‖ ≤ L)
    (hLip : ∀ t x y, ‖b.dcl t x - b.dcl t y‖ ≤ M * ‖x - y‖) (l : List ℝ) (hl : ∀ e ∈ l, 0 ≤ e ∧ e ≤ dt) (t : ℝ) (x : Fin nx → ℝ)
    (S E : Matrix (Fin nx) (Fin nx) ℝ) :
    ‖sens env d b l t x S - exactSens env d b l t x E‖ ≤ Real.exp (L * l.sum) * (‖S - E‖ + l.sum * M * V * dt * ‖E‖) := by
  induction l generalizing t x S E with
  | nil => simp [sens, exactSens]
  | cons e l ih =>
    obtain ⟨h0, hdt⟩ := hl e (by simp)
    have hL0 : 0 ≤ L := (norm_nonneg _).trans (hL t x)
    have hV0 : 0 ≤ V := (norm_nonneg _).trans (hV t x)
    have hs0 : 0 ≤ l.sum := List.sum_nonneg fun e' h' => (hl e' (by simp [h'])).1
    have hd0 : 0 ≤ dt := h0.trans hdt
    rw [sens, exactSens]
    rw [he.ad, sub_zero, he.plus]
    set y := x + e • d.f x (b.bu t x) with hy
    refine (ih (fun e' h' => hl e' (by simp [h'])) (t + e) y _ _).trans ?_
    have hyx : ‖y - x‖ ≤ dt * V := by
      rw [hy, add_sub_cancel_left, norm_smul, Real.norm_of_nonneg h0]
      exact mul_le_mul hdt (hV t x) (norm_nonneg _) hd0
    have hE : ‖E + e • (b.dcl t x * E)‖ ≤ (1 + e * L) * ‖E‖ := exactSens_norm env d b L hL e h0 t x E
    have hSE : ‖S + e • (b.dcl t y * S) - (E + e • (b.dcl t x * E))‖ ≤ (1 + e * L) * ‖S - E‖ + e * (M * V * dt * ‖E‖) := by
      have : S + e • (b.dcl t y * S) - (E + e • (b.dcl t x * E)) = (S - E + e • (b.dcl t y * (S - E))) + e • ((b.dcl t y - b.dcl t x) * E) := by
        rw [Matrix.mul_sub, Matrix.sub_mul, smul_sub, smul_sub]
        abel
      rw [this]
      refine (norm_add_le _ _).trans (add_le_add (exactSens_norm env d b L hL e h0 t y (S - E)) ?_)
      rw [norm_smul, Real.norm_of_nonneg h0]
      refine mul_le_mul_of_nonneg_left ((norm_mul_le _ _).trans ?_) h0
      refine mul_le_mul_of_nonneg_right ((hLip t y x).trans ?_) (norm_nonneg _)
      calc M * ‖y - x‖ ≤ M * (dt * V) := by gcongr
        _ = M * V * dt := by ring
    have hexp : 1 + e * L ≤ Real.exp (L * e) := by
      have := Real.add_one_le_exp (L * e)
      linarith
    have h1exp : 1 ≤ Real.exp (L * e) := Real.one_le_exp (by positivity)
    have hC : 0 ≤ M * V * dt := by positivity
    rw [List.sum_cons, show L * (e + l.sum) = L * l.sum + L * e by ring, Real.exp_add, mul_assoc (Real.exp (L * l.sum))]
    refine mul_le_mul_of_nonneg_left ?_ (Real.exp_pos _).le
    calc ‖S + e • (b.dcl t y * S) - (E + e • (b.dcl t x * E))‖ + l.sum * M * V * dt * ‖E + e • (b.dcl t x * E)‖
        ≤ (1 + e * L) * ‖S - E‖ + e * (M * V * dt * ‖E‖) + l.sum * M * V * dt * ((1 + e * L) * ‖E‖) := by gcongr
      _ ≤ Real.exp (L * e) * ‖S - E‖ + Real.exp (L * e) * (e * (M * V * dt * ‖E‖)) + l.sum * M * V * dt * (Real.exp (L * e) * ‖E‖) := by
          have h3 : 0 ≤ e * (M * V * dt * ‖E‖) := by positivity
          have h4 := le_mul_of_one_le_left h3 h1exp
          gcongr
      _ = Real.exp (L * e) * (‖S - E‖ + (e + l.sum) * M * V * dt * ‖E‖) := by ring

end

/-- Along the integrated flow, the derivative of the barrier under a change of the initial state with the velocity `v`, while time advances, is the
expression of the filter with the exact sensitivity. -/
theorem asif_barrier_derivative (env : Env (Fin nx → ℝ) U ℝ nx nu) (he : FlatState env) (d : Dyn (Fin nx → ℝ) U ℝ nx nu)
    (b : Backup (Fin nx → ℝ) U ℝ nx) (hd : HasClosedLoop d b) (h : Barrier (Fin nx → ℝ) ℝ nx) (l : List ℝ) (x0 v : Fin nx → ℝ) (j : Fin h.nh)
    (h' : (ℝ × (Fin nx → ℝ)) →L[ℝ] ℝ) (hh : HasFDerivAt (fun q : ℝ × (Fin nx → ℝ) => h.h q.1 q.2 j) h' (l.sum, march env d b l 0 x0))
    (e1 : h' (1, 0) = h.dt l.sum (march env d b l 0 x0) j)
    (e2 : ∀ w, h' (0, w) = (h.dx l.sum (march env d b l 0 x0)).mulVec w j) :
    HasDerivAt (fun s : ℝ => h.h (l.sum + s) (march env d b l 0 (x0 + s • v)) j)
      (h.dt l.sum (march env d b l 0 x0) j + (h.dx l.sum (march env d b l 0 x0)).mulVec ((exactSens env d b l 0 x0 1).mulVec v) j) 0 := by
  have h1 : HasDerivAt (fun s : ℝ => x0 + s • v) v 0 := by
    simpa using ((hasDerivAt_id (0 : ℝ)).smul_const v).const_add x0
  have h2 : HasDerivAt (fun s : ℝ => march env d b l 0 (x0 + s • v)) ((exactSens env d b l 0 x0 1).mulVec v) 0 := by
    have g := asif_exact_sens env he d b hd l 0 x0
    have g' : HasFDerivAt (fun x => march env d b l 0 x) (lin (exactSens env d b l 0 x0 1)) (x0 + (0 : ℝ) • v) := by simpa using g
    have := g'.comp_hasDerivAt (0 : ℝ) h1
    rw [lin_apply] at this
    exact this
  have h3 : HasDerivAt (fun s : ℝ => l.sum + s) 1 0 := (hasDerivAt_id (0 : ℝ)).const_add _
  have h4 := h3.prodMk h2
  have hh' : HasFDerivAt (fun q : ℝ × (Fin nx → ℝ) => h.h q.1 q.2 j) h' (l.sum + 0, march env d b l 0 (x0 + (0 : ℝ) • v)) := by simpa using hh
  have h5 := hh'.comp_hasDerivAt (0 : ℝ) h4
  have : h' (1, (exactSens env d b l 0 x0 1).mulVec v) = h.dt l.sum (march env d b l 0 x0) j +
      (h.dx l.sum (march env d b l 0 x0)).mulVec ((exactSens env d b l 0 x0 1).mulVec v) j := by
    rw [← e1, ← e2, ← map_add]
    simp
  rw [this] at h5
  exact h5

end Verif.ASIF
