import Verif.Proofs.LieSeries
import Verif.Proofs.LieZero
import Verif.Proofs.PIDSe2Lyap
import Mathlib.Analysis.SpecificLimits.Basic

/-! # The derivative of the exponential map on a group of motions of the plane, and the linearised turn of examples/pid_se2.cpp (C122) -/

namespace Verif.PIDSe2

open Verif.Lie Filter Topology

open scoped Matrix

/-- Coefficients of the powers of a matrix with `B ^ 3 = -t B`. -/
def pq (t : ℝ) : ℕ → ℝ × ℝ
  | 0 => (1, 0)
  | k + 1 => (-t * (pq t k).2, (pq t k).1)

theorem pow_pq {n : ℕ} {t : ℝ} {B : Matrix (Fin n) (Fin n) ℝ} (h : B * B * B = -t • B) (k : ℕ) : B ^ (k + 1) = (pq t k).1 • B + (pq t k).2 • (B * B) := by
  induction k with
  | zero => simp [pq]
  | succ k ih =>
    rw [pow_succ, ih, add_mul, Matrix.smul_mul, Matrix.smul_mul, h]
    simp only [pq]
    rw [smul_smul, add_comm, mul_comm]

theorem pq_le {t : ℝ} (h0 : 0 ≤ t) (h1 : t ≤ 1) (k : ℕ) : |(pq t k).1| ≤ 1 ∧ |(pq t k).2| ≤ 1 := by
  induction k with
  | zero => simp [pq]
  | succ k ih =>
    simp only [pq]
    refine ⟨?_, ih.1⟩
    rw [abs_mul, abs_neg, abs_of_nonneg h0]
    calc t * |(pq t k).2| ≤ 1 * 1 := mul_le_mul h1 ih.2 (abs_nonneg _) zero_le_one
      _ = 1 := one_mul 1

theorem pq_small {t : ℝ} (h0 : 0 ≤ t) (h1 : t ≤ 1) (k : ℕ) : |(pq t (k + 1)).1| ≤ t := by
  simp only [pq]
  rw [abs_mul, abs_neg, abs_of_nonneg h0]
  calc t * |(pq t k).2| ≤ t * 1 := mul_le_mul_of_nonneg_left (pq_le h0 h1 k).2 h0
    _ = t := mul_one t

theorem fact_le (k : ℕ) : (((k + 2).factorial : ℕ) : ℝ)⁻¹ ≤ (1 / 2) * (1 / 2) ^ k := by
  have h : 2 * 2 ^ k ≤ (k + 2).factorial := by
    induction k with
    | zero => decide
    | succ k ih =>
      rw [show k + 1 + 2 = (k + 2) + 1 by omega, Nat.factorial_succ, pow_succ]
      calc 2 * (2 ^ k * 2) = 2 * (2 * 2 ^ k) := by ring
        _ ≤ (k + 2 + 1) * (k + 2).factorial := Nat.mul_le_mul (by omega) ih
  have h' : (2 * 2 ^ k : ℝ) ≤ ((k + 2).factorial : ℝ) := by exact_mod_cast h
  rw [show (1 / 2 : ℝ) * (1 / 2) ^ k = (2 * 2 ^ k)⁻¹ by rw [mul_inv, one_div, inv_pow]]
  exact inv_anti₀ (by positivity) h'

theorem fact_le' (k m : ℕ) (h : k ≤ m) : (((m + 2).factorial : ℕ) : ℝ)⁻¹ ≤ (1 / 2) * (1 / 2) ^ k :=
  (fact_le m).trans (mul_le_mul_of_nonneg_left (pow_le_pow_of_le_one (by norm_num) (by norm_num) h) (by norm_num))

theorem geo (t : ℝ) : HasSum (fun k : ℕ => t * ((1 / 2) * (1 / 2) ^ k)) t := by
  have := (hasSum_geometric_two.mul_left (1 / 2 : ℝ)).mul_left t
  simpa using this

theorem dr_coeffs {X 𝔸 : Type*} {n : ℕ} [NormedRing 𝔸] [NormedAlgebra ℝ 𝔸] [FiniteDimensional ℝ 𝔸] [CompleteSpace 𝔸] {L : LieOps X ℝ n} {mat : X → 𝔸} {hat : (Fin n → ℝ) →ₗ[ℝ] 𝔸}
    (h : IsLie L mat hat) {a : Fin n → ℝ} {t : ℝ} (h0 : 0 ≤ t) (h1 : t ≤ 1) (hA : L.ad a * L.ad a * L.ad a = -t • L.ad a) :
    ∃ c1 c2 : ℝ, |c1 - 1 / 2| ≤ t ∧ |c2 - 1 / 6| ≤ t ∧
      ∀ b, L.drExp a *ᵥ b = b - c1 • (L.ad a *ᵥ b) + c2 • (L.ad a *ᵥ (L.ad a *ᵥ b)) := by
  have hB : (-L.ad a) * (-L.ad a) * (-L.ad a) = -t • (-L.ad a) := by
    rw [neg_mul_neg, mul_neg, hA, smul_neg]
  let f : ℕ → ℝ := fun k => (((k + 2).factorial : ℕ) : ℝ)⁻¹ * (pq t k).1
  let g : ℕ → ℝ := fun k => (((k + 2).factorial : ℕ) : ℝ)⁻¹ * (pq t k).2
  have bd : ∀ (k m : ℕ) (x c : ℝ), k ≤ m → |x| ≤ c → ‖(((m + 2).factorial : ℕ) : ℝ)⁻¹ * x‖ ≤ c * ((1 / 2) * (1 / 2) ^ k) := by
    intro k m x c hk hx
    have c0 : 0 ≤ c := (abs_nonneg x).trans hx
    rw [norm_mul, Real.norm_eq_abs, Real.norm_eq_abs, abs_of_nonneg (by positivity), mul_comm]
    exact mul_le_mul hx (fact_le' k m hk) (by positivity) c0
  have sf : Summable f := Summable.of_norm_bounded (geo 1).summable fun k => bd k k _ _ le_rfl (pq_le h0 h1 k).1
  have sg : Summable g := Summable.of_norm_bounded (geo 1).summable fun k => bd k k _ _ le_rfl (pq_le h0 h1 k).2
  refine ⟨∑' k, f k, ∑' k, g k, ?_, ?_, fun b => ?_⟩
  · rw [sf.tsum_eq_zero_add]
    have : f 0 = 1 / 2 := by simp [f, pq]
    rw [this, add_sub_cancel_left]
    exact tsum_of_norm_bounded (geo t) fun k => bd k (k + 1) _ _ (by omega) (pq_small h0 h1 k)
  · rw [sg.tsum_eq_zero_add, ((summable_nat_add_iff 1).2 sg).tsum_eq_zero_add]
    have e0 : g 0 = 0 := by simp [g, pq]
    have e1 : g (0 + 1) = 1 / 6 := by
      simp [g, pq, Nat.factorial]
      norm_num
    rw [e0, e1, zero_add, add_sub_cancel_left]
    exact tsum_of_norm_bounded (geo t) fun k => bd k (k + 1 + 1) _ _ (by omega) (pq_small h0 h1 k)
  · have hs := h.drExp_hasSum a b
    have hs' := (hasSum_nat_add_iff' 1).2 hs
    have e : ∀ k : ℕ, ((k + 1 + 1).factorial : ℝ)⁻¹ • ((-L.ad a) ^ (k + 1) *ᵥ b) = f k • (-L.ad a *ᵥ b) + g k • (L.ad a *ᵥ (L.ad a *ᵥ b)) := by
      intro k
      rw [pow_pq hB k, Matrix.add_mulVec, Matrix.smul_mulVec, Matrix.smul_mulVec, smul_add, smul_smul, smul_smul, neg_mul_neg, Matrix.mulVec_mulVec]
    simp only [e] at hs'
    have hs'' := (sf.hasSum.smul_const (-L.ad a *ᵥ b)).add (sg.hasSum.smul_const (L.ad a *ᵥ (L.ad a *ᵥ b)))
    have := hs'.unique hs''
    simp only [Finset.sum_range_one, pow_zero, Matrix.one_mulVec] at this
    simp only [zero_add, Nat.factorial_one, Nat.cast_one, inv_one, one_smul] at this
    rw [sub_eq_iff_eq_add] at this
    rw [this, Matrix.neg_mulVec, smul_neg]
    abel

section

variable {X 𝔸 : Type*} [NormedRing 𝔸] [NormedAlgebra ℝ 𝔸] [FiniteDimensional ℝ 𝔸] [CompleteSpace 𝔸] {L : LieOps X ℝ 3} {mat : X → 𝔸} {hat : (Fin 3 → ℝ) →ₗ[ℝ] 𝔸}

/-- Coordinates: the error of the pose, and of forward speed and rate of turn. -/
def ez : (Fin 5 → ℝ) →L[ℝ] (Fin 3 → ℝ) :=
  ContinuousLinearMap.pi ![ContinuousLinearMap.proj 0, ContinuousLinearMap.proj 1, ContinuousLinearMap.proj 2]

theorem ez_eq (z : Fin 5 → ℝ) : ez z = ![z 0, z 1, z 2] := by
  funext k
  fin_cases k <;> rfl

/-- The input near the desired trajectory, as an acceleration. -/
noncomputable def wz (z : Fin 5 → ℝ) : Fin 3 → ℝ := ![-z 0 - z 3, 0, -z 2 - z 4 - 3 / 10 * z 1]

/-- What a turn adds to the pose, less what it adds on the desired trajectory. -/
noncomputable def iz : (Fin 5 → ℝ) →L[ℝ] (Fin 3 → ℝ) :=
  LinearMap.toContinuousLinearMap
    { toFun := fun z => ![z 3 / 20 + (-z 0 - z 3) / 800, 0, z 4 / 20 + (-z 2 - z 4 - 3 / 10 * z 1) / 800]
      map_add' := fun a b => by
        funext k
        fin_cases k <;> simp <;> ring
      map_smul' := fun c a => by
        funext k
        fin_cases k <;> simp <;> ring }

theorem iz_eq (z : Fin 5 → ℝ) : iz z = ![z 3 / 20 + (-z 0 - z 3) / 800, 0, z 4 / 20 + (-z 2 - z 4 - 3 / 10 * z 1) / 800] := rfl

/-- The motion on the desired trajectory in a turn. -/
noncomputable def at1 : Fin 3 → ℝ := ![1 / 20, 0, 1 / 50]

/-- The error of the pose after a turn, as a group element. -/
noncomputable def zz (hat : (Fin 3 → ℝ) →ₗ[ℝ] 𝔸) (z : Fin 5 → ℝ) : 𝔸 := NormedSpace.exp (-hat at1) * NormedSpace.exp (hat (ez z)) * NormedSpace.exp (hat (at1 + iz z))

/-- The errors after a turn, with a logarithm `g`. -/
noncomputable def next (hat : (Fin 3 → ℝ) →ₗ[ℝ] 𝔸) (g : 𝔸 → Fin 3 → ℝ) (z : Fin 5 → ℝ) : Fin 5 → ℝ :=
  ![g (zz hat z) 0, g (zz hat z) 1, g (zz hat z) 2, z 3 + (-z 0 - z 3) / 20, z 4 + (-z 2 - z 4 - 3 / 10 * z 1) / 20]

theorem zz_zero (h : IsLie L mat hat) : zz hat 0 = 1 := by
  unfold zz
  rw [map_zero, map_zero, map_zero, NormedSpace.exp_zero, mul_one, add_zero, exp_neg_mul]

theorem zz_deriv (h : IsLie L mat hat) : ∃ D : (Fin 5 → ℝ) →L[ℝ] 𝔸, HasFDerivAt (zz hat) D 0 ∧
    ∀ z, D z = hat (ez z + L.drExp at1 *ᵥ (iz z - L.ad at1 *ᵥ ez z)) := by
  obtain ⟨D0, d0, e0⟩ := h.drExp 0
  obtain ⟨D1, d1, e1⟩ := h.drExp at1
  have k0 : HasFDerivAt (fun z : Fin 5 → ℝ => NormedSpace.exp (hat (ez z))) (D0.comp ez) 0 := by
    have : HasFDerivAt (fun a => NormedSpace.exp (hat a)) D0 (ez 0) := by rwa [map_zero]
    exact this.comp (0 : Fin 5 → ℝ) ez.hasFDerivAt
  have k1 : HasFDerivAt (fun z : Fin 5 → ℝ => NormedSpace.exp (hat (at1 + iz z))) (D1.comp iz) 0 := by
    have : HasFDerivAt (fun a => NormedSpace.exp (hat a)) D1 (at1 + iz 0) := by rwa [map_zero, add_zero]
    exact this.comp (0 : Fin 5 → ℝ) (iz.hasFDerivAt.const_add at1)
  have k2 := (k0.const_mul (NormedSpace.exp (-hat at1))).mul' k1
  refine ⟨_, k2, fun z => ?_⟩
  have hAd := h.hat_Ad_exp at1 (ez z)
  have hk := h.drExp_ad at1 (ez z)
  have e2 : ez z + L.drExp at1 *ᵥ (iz z - L.ad at1 *ᵥ ez z) = L.Ad (L.exp (-at1)) *ᵥ ez z + L.drExp at1 *ᵥ iz z := by
    rw [Matrix.mulVec_sub, hk]
    abel
  rw [e2, map_add hat (L.Ad (L.exp (-at1)) *ᵥ ez z), hAd]
  simp only [ContinuousLinearMap.add_apply, ContinuousLinearMap.smul_apply, ContinuousLinearMap.comp_apply, map_zero, NormedSpace.exp_zero, mul_one, add_zero, e0, e1, h.drExp_zero,
    Matrix.one_mulVec, one_mul, smul_eq_mul, MulOpposite.smul_eq_mul_unop, MulOpposite.unop_op]
  rw [← mul_assoc, exp_neg_mul, one_mul, add_comm]

theorem ad_cube (had : ∀ a, L.ad a = !![0, -a 2, a 1; a 2, 0, -a 0; 0, 0, 0]) : L.ad at1 * L.ad at1 * L.ad at1 = -(1 / 2500 : ℝ) • L.ad at1 := by
  rw [had]
  ext i j
  fin_cases i <;> fin_cases j <;> simp [at1, Matrix.mul_apply, Fin.sum_univ_succ] <;> norm_num

/-- The linearised turn. -/
theorem next_deriv (h : IsLie L mat hat) (had : ∀ a, L.ad a = !![0, -a 2, a 1; a 2, 0, -a 0; 0, 0, 0]) {g : 𝔸 → Fin 3 → ℝ} {G : 𝔸 →L[ℝ] (Fin 3 → ℝ)} (hg : HasFDerivAt g G 1)
    (hG : ∀ b, G (hat b) = b) :
    ∃ c1 c2 : ℝ, |c1 - 1 / 2| ≤ 1 / 2500 ∧ |c2 - 1 / 6| ≤ 1 / 2500 ∧ ∃ M : (Fin 5 → ℝ) →L[ℝ] (Fin 5 → ℝ), HasFDerivAt (next hat g) M 0 ∧ ∀ z, M z = turn c1 c2 z := by
  obtain ⟨c1, c2, b1, b2, hd⟩ := dr_coeffs h (by norm_num) (by norm_num) (ad_cube had)
  obtain ⟨D, d, e⟩ := zz_deriv h
  refine ⟨c1, c2, b1, b2, ?_⟩
  have k : HasFDerivAt (fun z => g (zz hat z)) (G.comp D) 0 := by
    have : HasFDerivAt g G (zz hat 0) := by rwa [zz_zero h]
    exact this.comp (0 : Fin 5 → ℝ) d
  have kk : ∀ j, HasFDerivAt (fun z => g (zz hat z) j) ((ContinuousLinearMap.proj j).comp (G.comp D)) 0 := hasFDerivAt_pi.1 k
  let p : Fin 5 → (Fin 5 → ℝ) →L[ℝ] ℝ := fun j => ContinuousLinearMap.proj j
  let M : Fin 5 → (Fin 5 → ℝ) →L[ℝ] ℝ := ![(ContinuousLinearMap.proj 0).comp (G.comp D), (ContinuousLinearMap.proj 1).comp (G.comp D), (ContinuousLinearMap.proj 2).comp (G.comp D),
    p 3 + (1 / 20 : ℝ) • (-p 0 - p 3), p 4 + (1 / 20 : ℝ) • (-p 2 - p 4 - (3 / 10 : ℝ) • p 1)]
  refine ⟨ContinuousLinearMap.pi M, ?_, fun z => ?_⟩
  · refine hasFDerivAt_pi.2 fun j => ?_
    fin_cases j
    · exact kk 0
    · exact kk 1
    · exact kk 2
    · have : HasFDerivAt (fun z => (p 3 + (1 / 20 : ℝ) • (-p 0 - p 3)) z) (p 3 + (1 / 20 : ℝ) • (-p 0 - p 3)) 0 := ContinuousLinearMap.hasFDerivAt _
      refine this.congr_of_eventuallyEq (Eventually.of_forall fun z => ?_)
      simp [next, p]
      ring
    · have : HasFDerivAt (fun z => (p 4 + (1 / 20 : ℝ) • (-p 2 - p 4 - (3 / 10 : ℝ) • p 1)) z) (p 4 + (1 / 20 : ℝ) • (-p 2 - p 4 - (3 / 10 : ℝ) • p 1)) 0 := ContinuousLinearMap.hasFDerivAt _
      refine this.congr_of_eventuallyEq (Eventually.of_forall fun z => ?_)
      simp [next, p]
      ring
  · have hA : ∀ b : Fin 3 → ℝ, L.ad at1 *ᵥ b = ![-(b 1 / 50), b 0 / 50 - b 2 / 20, 0] := by
      intro b
      rw [had]
      funext j
      fin_cases j <;> simp [at1, Matrix.mulVec, dotProduct, Fin.sum_univ_succ] <;> ring
    have hy : iz z - L.ad at1 *ᵥ ez z = yv z := by
      rw [hA, iz_eq, ez_eq]
      funext j
      fin_cases j <;> simp [yv] <;> ring
    have hM : G (D z) = ez z + (yv z - c1 • ![-(yv z 1 / 50), yv z 0 / 50 - yv z 2 / 20, 0] + c2 • ![-((yv z 0 / 50 - yv z 2 / 20) / 50), -(yv z 1 / 50) / 50, 0]) := by
      rw [e, hG, hy, hd, hA (yv z), hA]
      congr 3
      funext j
      fin_cases j <;> simp
    funext j
    fin_cases j
    · change G (D z) 0 = _
      rw [hM, ez_eq]
      simp [turn, Matrix.vecHead, Matrix.vecTail]
      ring
    · change G (D z) 1 = _
      rw [hM, ez_eq]
      simp [turn, Matrix.vecHead, Matrix.vecTail]
      ring
    · change G (D z) 2 = _
      rw [hM, ez_eq]
      simp [turn, Matrix.vecHead, Matrix.vecTail]
    · simp [M, p, turn]
      ring
    · simp [M, p, turn]
      ring

end

end Verif.PIDSe2
