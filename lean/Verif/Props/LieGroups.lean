import Verif.Spec.Lie
import Mathlib.LinearAlgebra.Matrix.Notation
import Mathlib.Analysis.Matrix.Normed
import Mathlib.Analysis.Normed.Algebra.TrivSqZeroExt
import Mathlib.Analysis.Calculus.FDeriv.Mul
import Mathlib.Analysis.Calculus.FDeriv.Add
import Mathlib.Analysis.Calculus.FDeriv.Linear
import Mathlib.Analysis.SpecialFunctions.Exponential

/-!
# Two groups with explicit formulas

Vectors with addition, and the Heisenberg group (not commutative; the error dynamics series terminates).
-/

namespace Verif.Lie

open scoped Matrix Topology
open Filter

/-! ### Vectors -/

/-- `Eigen::Vector<double, n>` as a Lie group. -/
def vec (F : Type*) [Field F] (n : ℕ) : LieOps (Fin n → F) F n where
  rplus x a := x + a
  exp a := a
  Ad _ := 1
  ad _ := 0
  drExp _ := 1
  drExpinv _ := 1
  d2rExp _ _ := 0
  d2rExpinv _ _ := 0
  gen _ := 0

instance (n : ℕ) : FiniteDimensional ℝ (TrivSqZeroExt ℝ (Fin n → ℝ)) := inferInstanceAs (FiniteDimensional ℝ (ℝ × (Fin n → ℝ)))

/-- Vectors as units `1 + x` with `x² = 0`. -/
noncomputable def vecHat (n : ℕ) : (Fin n → ℝ) →ₗ[ℝ] TrivSqZeroExt ℝ (Fin n → ℝ) := TrivSqZeroExt.inrHom ℝ (Fin n → ℝ)

noncomputable def vecMat (n : ℕ) (x : Fin n → ℝ) : TrivSqZeroExt ℝ (Fin n → ℝ) := 1 + TrivSqZeroExt.inr x

theorem vec_exp {n : ℕ} (a : Fin n → ℝ) : NormedSpace.exp (vecHat n a) = vecMat n a := TrivSqZeroExt.exp_inr a

theorem vecMat_mul {n : ℕ} (x a : Fin n → ℝ) : vecMat n x * vecMat n a = vecMat n (x + a) := by
  unfold vecMat
  rw [mul_add, add_mul, mul_one, add_mul, one_mul, TrivSqZeroExt.inr_mul_inr, add_zero, TrivSqZeroExt.inr_add]
  simp [add_assoc]

theorem vec_isLie (n : ℕ) : IsLie (vec ℝ n) (vecMat n) (vecHat n) where
  hat_inj := TrivSqZeroExt.inr_injective
  unit x := ⟨⟨vecMat n x, vecMat n (-x), by rw [vecMat_mul, add_neg_cancel]; simp [vecMat], by rw [vecMat_mul, neg_add_cancel]; simp [vecMat]⟩, rfl⟩
  rplus x a := by rw [vec_exp, vecMat_mul]; rfl
  exp a := (vec_exp a).symm
  chart := by
    intro x ε hε
    refine ⟨ε, hε, fun y hy => ⟨y - x, ?_, by simp [vec]⟩⟩
    have : vecMat n y - vecMat n x = TrivSqZeroExt.inr (y - x) := by simp [vecMat, TrivSqZeroExt.inr_sub]
    rw [this, TrivSqZeroExt.norm_inr] at hy
    exact hy
  Ad x v := by
    simp only [vec, Matrix.one_mulVec]
    exact mul_comm _ _
  ad a b := by
    simp only [vec, Matrix.zero_mulVec, map_zero]
    rw [mul_comm, sub_self]
  gen a := by simp [vec]
  drExp a := by
    refine ⟨LinearMap.toContinuousLinearMap (vecHat n), ?_, fun b => ?_⟩
    · have e : (fun a => NormedSpace.exp (vecHat n a)) = fun a => (1 : TrivSqZeroExt ℝ (Fin n → ℝ)) + LinearMap.toContinuousLinearMap (vecHat n) a :=
        funext fun a => vec_exp a
      rw [e]
      exact (LinearMap.toContinuousLinearMap (vecHat n)).hasFDerivAt.const_add _
    · rw [vec_exp]
      change TrivSqZeroExt.inr b = (1 + TrivSqZeroExt.inr a) * TrivSqZeroExt.inr (_ *ᵥ b)
      rw [add_mul, one_mul, TrivSqZeroExt.inr_mul_inr, add_zero]
      simp [vec]
  drExpinv a _ := by simp [vec]
  d2rExp a k r := ⟨0, by simpa [vec] using hasFDerivAt_const _ _, fun c => by simp [vec]⟩
  d2rExpinv a _ k r := ⟨0, by simpa [vec] using hasFDerivAt_const _ _, fun c => by simp [vec]⟩

/-! ### The Heisenberg group -/

section

variable {F : Type*} [Field F]

/-- `ad a b = (0, 0, a₀ b₁ - a₁ b₀)`. -/
def heisAd (a : Fin 3 → F) : Matrix (Fin 3) (Fin 3) F := !![0, 0, 0; 0, 0, 0; -a 1, a 0, 0]

/-- `(x₀, x₁, x₂)` is the matrix with rows `(1, x₀, x₂)`, `(0, 1, x₁)`, `(0, 0, 1)`. -/
def heis : LieOps (Fin 3 → F) F 3 where
  rplus x a := ![x 0 + a 0, x 1 + a 1, x 2 + (a 2 + a 0 * a 1 / 2) + x 0 * a 1]
  exp a := ![a 0, a 1, a 2 + a 0 * a 1 / 2]
  Ad x := !![1, 0, 0; 0, 1, 0; -x 1, x 0, 1]
  ad a := heisAd a
  drExp a := !![1, 0, 0; 0, 1, 0; a 1 / 2, -a 0 / 2, 1]
  drExpinv a := !![1, 0, 0; 0, 1, 0; -a 1 / 2, a 0 / 2, 1]
  d2rExp _ k := if k = 2 then !![0, 1 / 2, 0; -1 / 2, 0, 0; 0, 0, 0] else 0
  d2rExpinv _ k := if k = 2 then !![0, -1 / 2, 0; 1 / 2, 0, 0; 0, 0, 0] else 0
  gen i := heisAd (Pi.single i 1)

end

def heisMat (x : Fin 3 → ℝ) : Matrix (Fin 3) (Fin 3) ℝ := !![1, x 0, x 2; 0, 1, x 1; 0, 0, 1]

def heisHat : (Fin 3 → ℝ) →ₗ[ℝ] Matrix (Fin 3) (Fin 3) ℝ where
  toFun a := !![0, a 0, a 2; 0, 0, a 1; 0, 0, 0]
  map_add' a b := by ext i j; fin_cases i <;> fin_cases j <;> simp
  map_smul' c a := by ext i j; fin_cases i <;> fin_cases j <;> simp

attribute [local instance] Matrix.linftyOpNormedRing Matrix.linftyOpNormedAlgebra Matrix.linftyOpNormedSpace Matrix.linftyOpNormedAddCommGroup

theorem heis_cube (a : Fin 3 → ℝ) (k : ℕ) : heisHat a ^ (k + 3) = 0 := by
  have : heisHat a ^ 3 = 0 := by
    rw [pow_succ, pow_two]
    ext i j
    fin_cases i <;> fin_cases j <;> simp [heisHat, Matrix.mul_apply, Fin.sum_univ_succ]
  rw [pow_add, this, mul_zero]

theorem heis_exp' (a : Fin 3 → ℝ) : NormedSpace.exp (heisHat a) = 1 + heisHat a + (2 : ℝ)⁻¹ • (heisHat a * heisHat a) := by
  rw [NormedSpace.exp_eq_tsum ℝ]
  change ∑' n : ℕ, ((n.factorial : ℝ)⁻¹) • heisHat a ^ n = _
  rw [tsum_eq_sum (s := Finset.range 3)]
  · simp only [Finset.sum_range_succ, Finset.sum_range_zero, Nat.factorial, pow_two]
    simp
  · intro n hn
    obtain ⟨k, rfl⟩ := Nat.exists_eq_add_of_le (show 3 ≤ n by simpa using hn)
    rw [add_comm 3 k, heis_cube, smul_zero]

theorem heis_exp (a : Fin 3 → ℝ) : NormedSpace.exp (heisHat a) = heisMat ((heis (F := ℝ)).exp a) := by
  rw [heis_exp']
  ext i j
  fin_cases i <;> fin_cases j <;> simp [heisHat, heisMat, heis, Matrix.mul_apply, Fin.sum_univ_succ, Matrix.one_apply]
  ring

theorem entry_continuous (i j : Fin 3) : Continuous fun M : Matrix (Fin 3) (Fin 3) ℝ => M i j :=
  (LinearMap.toContinuousLinearMap (Matrix.entryLinearMap ℝ ℝ i j)).continuous

theorem heis_d2 (a : Fin 3 → ℝ) (k r : Fin 3) : ∃ D : (Fin 3 → ℝ) →L[ℝ] ℝ, HasFDerivAt (fun a => (heis (F := ℝ)).drExp a k r) D a ∧ ∀ c, D (Pi.single c 1) = (heis (F := ℝ)).d2rExp a k r c := by
  have hp : ∀ i : Fin 3, HasFDerivAt (fun a : Fin 3 → ℝ => a i) (ContinuousLinearMap.proj (R := ℝ) (φ := fun _ : Fin 3 => ℝ) i) a := fun i => hasFDerivAt_apply (𝕜 := ℝ) i a
  fin_cases k <;> fin_cases r
  all_goals first
    | exact ⟨0, hasFDerivAt_const _ _, fun c => by fin_cases c <;> simp [heis]⟩
    | skip
  · refine ⟨(2 : ℝ)⁻¹ • ContinuousLinearMap.proj 1, ?_, fun c => by fin_cases c <;> simp [heis]⟩
    have := (hp 1).const_mul (2 : ℝ)⁻¹
    refine this.congr_of_eventuallyEq (Eventually.of_forall fun a => ?_)
    simp [heis]; ring
  · refine ⟨(-(2 : ℝ)⁻¹) • ContinuousLinearMap.proj 0, ?_, fun c => by fin_cases c <;> simp [heis] <;> ring⟩
    have := (hp 0).const_mul (-(2 : ℝ)⁻¹)
    refine this.congr_of_eventuallyEq (Eventually.of_forall fun a => ?_)
    simp [heis]; ring

theorem heis_d2inv (a : Fin 3 → ℝ) (k r : Fin 3) : ∃ D : (Fin 3 → ℝ) →L[ℝ] ℝ, HasFDerivAt (fun a => (heis (F := ℝ)).drExpinv a k r) D a ∧ ∀ c, D (Pi.single c 1) = (heis (F := ℝ)).d2rExpinv a k r c := by
  have hp : ∀ i : Fin 3, HasFDerivAt (fun a : Fin 3 → ℝ => a i) (ContinuousLinearMap.proj (R := ℝ) (φ := fun _ : Fin 3 => ℝ) i) a := fun i => hasFDerivAt_apply (𝕜 := ℝ) i a
  fin_cases k <;> fin_cases r
  all_goals first
    | exact ⟨0, hasFDerivAt_const _ _, fun c => by fin_cases c <;> simp [heis]⟩
    | skip
  · refine ⟨(-(2 : ℝ)⁻¹) • ContinuousLinearMap.proj 1, ?_, fun c => by fin_cases c <;> simp [heis] <;> ring⟩
    have := (hp 1).const_mul (-(2 : ℝ)⁻¹)
    refine this.congr_of_eventuallyEq (Eventually.of_forall fun a => ?_)
    simp [heis]; ring
  · refine ⟨(2 : ℝ)⁻¹ • ContinuousLinearMap.proj 0, ?_, fun c => by fin_cases c <;> simp [heis]⟩
    have := (hp 0).const_mul (2 : ℝ)⁻¹
    refine this.congr_of_eventuallyEq (Eventually.of_forall fun a => ?_)
    simp [heis]; ring

theorem heis_isLie : IsLie (heis (F := ℝ)) heisMat heisHat where
  hat_inj := by
    intro a b h
    have h0 := congrFun (congrFun h 0) 1
    have h1 := congrFun (congrFun h 1) 2
    have h2 := congrFun (congrFun h 0) 2
    simp only [heisHat] at h0 h1 h2
    funext i
    fin_cases i
    · simpa using h0
    · simpa using h1
    · simpa using h2
  unit x := by
    rw [Matrix.isUnit_iff_isUnit_det]
    have : (heisMat x).det = 1 := by simp [heisMat, Matrix.det_fin_three]
    rw [this]
    exact isUnit_one
  rplus x a := by
    refine Eq.trans ?_ (congrArg (heisMat x * ·) (heis_exp a).symm)
    ext i j
    fin_cases i <;> fin_cases j <;> simp [heisMat, heis, Matrix.mul_apply, Fin.sum_univ_succ] <;> ring
  exp a := (heis_exp a).symm
  chart := by
    intro x ε hε
    let Φ : Matrix (Fin 3) (Fin 3) ℝ → (Fin 3 → ℝ) := fun M =>
      ![M 0 1 - x 0, M 1 2 - x 1, M 0 2 - x 2 - (M 0 1 - x 0) * (M 1 2 - x 1) / 2 - x 0 * (M 1 2 - x 1)]
    have hΦ : Continuous Φ := by
      refine continuous_pi fun i => ?_
      have h01 := entry_continuous 0 1
      have h12 := entry_continuous 1 2
      have h02 := entry_continuous 0 2
      fin_cases i
      · exact h01.sub continuous_const
      · exact h12.sub continuous_const
      · change Continuous fun M : Matrix (Fin 3) (Fin 3) ℝ => M 0 2 - x 2 - (M 0 1 - x 0) * (M 1 2 - x 1) / 2 - x 0 * (M 1 2 - x 1)
        fun_prop
    have h0 : Φ (heisMat x) = 0 := by
      funext i
      fin_cases i <;> simp [Φ, heisMat]
    obtain ⟨δ, hδ, hb⟩ := Metric.continuous_iff.1 hΦ (heisMat x) ε hε
    refine ⟨δ, hδ, fun y hy => ⟨Φ (heisMat y), ?_, ?_⟩⟩
    · have := hb (heisMat y) (by rwa [dist_eq_norm])
      rwa [h0, dist_zero_right] at this
    · funext i
      fin_cases i <;> simp [Φ, heisMat, heis]
      ring
  Ad x v := by
    ext i j
    fin_cases i <;> fin_cases j <;> simp [heisMat, heisHat, heis, Matrix.mul_apply, Matrix.mulVec, dotProduct, Fin.sum_univ_succ] <;> ring
  ad a b := by
    ext i j
    fin_cases i <;> fin_cases j <;> simp [heisAd, heisHat, heis, Matrix.mul_apply, Matrix.mulVec, dotProduct, Fin.sum_univ_succ] <;> ring
  gen a := by
    ext i j
    fin_cases i <;> fin_cases j <;> simp [heisAd, heis, Fin.sum_univ_succ, Matrix.sum_apply]
  drExp a := by
    let C := LinearMap.toContinuousLinearMap heisHat
    refine ⟨_, HasFDerivAt.congr_of_eventuallyEq ((C.hasFDerivAt.const_add 1).add ((C.hasFDerivAt.mul' C.hasFDerivAt).const_smul (2 : ℝ)⁻¹)) (Eventually.of_forall fun a => heis_exp' a), fun b => ?_⟩
    refine Eq.trans ?_ (congrArg (· * heisHat _) (heis_exp a).symm)
    change heisHat b + (2 : ℝ)⁻¹ • (heisHat a * heisHat b + heisHat b * heisHat a) = _
    ext i j
    fin_cases i <;> fin_cases j <;>
      simp [heisMat, heisHat, heis, Matrix.mul_apply, Matrix.mulVec, dotProduct, Fin.sum_univ_succ] <;> ring
  drExpinv a _ := by
    symm
    apply Matrix.inv_eq_right_inv
    ext i j
    fin_cases i <;> fin_cases j <;> simp [heis, Matrix.mul_apply, Fin.sum_univ_succ, Matrix.one_apply] <;> ring
  d2rExp a k r := heis_d2 a k r
  d2rExpinv a _ k r := heis_d2inv a k r

/-- It is not commutative. -/
theorem heis_ad_ne : (heis (F := ℝ)).ad ![1, 0, 0] ≠ 0 := by
  intro h
  have := congrFun (congrFun h 2) 1
  simp [heis, heisAd] at this

theorem heis_drExp_det (a : Fin 3 → ℝ) : IsUnit ((heis (F := ℝ)).drExp a).det := by
  have : ((heis (F := ℝ)).drExp a).det = 1 := by simp [heis, Matrix.det_fin_three]
  rw [this]
  exact isUnit_one

end Verif.Lie
