import Verif.Proofs.MeshEnv
import Mathlib.Analysis.Calculus.LocalExtr.Rolle
import Mathlib.Analysis.Calculus.Deriv.Polynomial
import Mathlib.MeasureTheory.Integral.IntervalIntegral.FundThmCalculus
import Mathlib.MeasureTheory.Integral.IntervalIntegral.IntegrationByParts
import Mathlib.LinearAlgebra.Lagrange
import Mathlib.Algebra.Polynomial.Div
import Mathlib.Topology.Algebra.Polynomial
import Mathlib.Analysis.SpecialFunctions.Log.Basic

/-!
# LGR rules exist for every number of points

The polynomial `d^n/dx^n ((1 - x)^n (1 + x)^(n+1))` has degree `n + 1`, vanishes at −1 and, by repeated use of Rolle's theorem,
at `n` points of the open interval, and is orthogonal to all polynomials of degree below `n`.
-/

namespace Verif.Mesh

open Polynomial

/-- `(1 - x)^n (1 + x)^(n+1)`. -/
noncomputable def rod (n : ℕ) : ℝ[X] := (1 - X) ^ n * (X + 1) ^ (n + 1)

theorem rod_left (n j : ℕ) (h : j < n + 1) : (derivative^[j] (rod n)).eval (-1) = 0 := by
  have h1 := pow_sub_dvd_iterate_derivative_of_pow_dvd (p := rod n) (q := (X + 1 : ℝ[X])) (n := n + 1) j
    (Dvd.intro_left _ rfl)
  have h2 : (X + 1 : ℝ[X]) ∣ derivative^[j] (rod n) := (dvd_pow_self _ (by omega)).trans h1
  obtain ⟨c, hc⟩ := h2
  rw [hc]; simp

theorem rod_right (n j : ℕ) (h : j < n) : (derivative^[j] (rod n)).eval 1 = 0 := by
  have h1 := pow_sub_dvd_iterate_derivative_of_pow_dvd (p := rod n) (q := (1 - X : ℝ[X])) (n := n) j
    (Dvd.intro _ rfl)
  have h2 : (1 - X : ℝ[X]) ∣ derivative^[j] (rod n) := (dvd_pow_self _ (by omega)).trans h1
  obtain ⟨c, hc⟩ := h2
  rw [hc]; simp

theorem rolle_poly (P : ℝ[X]) (a b : ℝ) (h : a < b) (ha : P.eval a = 0) (hb : P.eval b = 0) :
    ∃ c, a < c ∧ c < b ∧ (derivative P).eval c = 0 := by
  obtain ⟨c, hc, h0⟩ := exists_hasDerivAt_eq_zero (f := fun x => P.eval x) (f' := fun x => (derivative P).eval x) h
    P.continuous.continuousOn (by simp [ha, hb]) (fun x _ => P.hasDerivAt x)
  exact ⟨c, hc.1, hc.2, h0⟩

/-- Before the last derivative: both ends and `k` points between. -/
theorem rod_roots (n k : ℕ) (hk : k < n) : ∃ y : ℕ → ℝ, y 0 = -1 ∧ y (k + 1) = 1 ∧
    (∀ i, i < k + 1 → y i < y (i + 1)) ∧ ∀ i, i < k + 2 → (derivative^[k] (rod n)).eval (y i) = 0 := by
  induction k with
  | zero =>
    refine ⟨fun i => if i = 0 then -1 else 1, by simp, by simp, ?_, ?_⟩
    · intro i hi
      obtain rfl : i = 0 := by omega
      norm_num
    · intro i hi
      obtain rfl | rfl : i = 0 ∨ i = 1 := by omega
      · simpa using rod_left n 0 (by omega)
      · simpa using rod_right n 0 hk
  | succ k ih =>
    obtain ⟨y, y0, y1, hy, hr⟩ := ih (by omega)
    have hz : ∀ i : ℕ, ∃ c, i < k + 1 → y i < c ∧ c < y (i + 1) ∧ (derivative^[k + 1] (rod n)).eval c = 0 := by
      intro i
      by_cases hi : i < k + 1
      · obtain ⟨c, h1, h2, h3⟩ := rolle_poly _ _ _ (hy i hi) (hr i (by omega)) (hr (i + 1) (by omega))
        refine ⟨c, fun _ => ⟨h1, h2, ?_⟩⟩
        rw [Function.iterate_succ_apply']; exact h3
      · exact ⟨0, fun h => absurd h hi⟩
    choose z hz using hz
    refine ⟨fun i => if i = 0 then -1 else if i = k + 2 then 1 else z (i - 1), by simp, by simp, ?_, ?_⟩
    · intro i hi
      rcases i with _ | i
      · have := (hz 0 (by omega)).1
        rw [y0] at this
        simpa using this
      · have h1 : ¬ i + 1 = k + 2 := by omega
        have e1 := hz i (by omega)
        by_cases h2 : i = k
        · subst h2
          rw [y1] at e1
          simpa using e1.2.1
        · have e2 := hz (i + 1) (by omega)
          have h3 : ¬ i + 1 + 1 = k + 2 := by omega
          simp only [Nat.add_eq_zero_iff, one_ne_zero, and_false, if_false, h1, h3, Nat.add_sub_cancel]
          exact e1.2.1.trans e2.1
    · intro i hi
      rcases i with _ | i
      · simpa using rod_left n (k + 1) (by omega)
      · by_cases h1 : i + 1 = k + 2
        · simp only [h1]
          simpa using rod_right n (k + 1) hk
        · simp only [Nat.add_eq_zero_iff, one_ne_zero, and_false, if_false, h1, Nat.add_sub_cancel]
          exact (hz i (by omega)).2.2

/-- The nodes. -/
theorem lgr_points (n : ℕ) : ∃ x : ℕ → ℝ, x 0 = -1 ∧ (∀ i, i < n → x i < x (i + 1)) ∧ (∀ i, i < n + 1 → x i < 1) ∧
    ∀ i, i < n + 1 → (derivative^[n] (rod n)).eval (x i) = 0 := by
  rcases n with _ | n
  · refine ⟨fun _ => -1, rfl, fun i hi => by omega, fun i _ => by norm_num, fun i _ => rod_left 0 0 (by omega)⟩
  · obtain ⟨y, y0, y1, hy, hr⟩ := rod_roots (n + 1) n (by omega)
    have hz : ∀ i : ℕ, ∃ c, i < n + 1 → y i < c ∧ c < y (i + 1) ∧ (derivative^[n + 1] (rod (n + 1))).eval c = 0 := by
      intro i
      by_cases hi : i < n + 1
      · obtain ⟨c, h1, h2, h3⟩ := rolle_poly _ _ _ (hy i hi) (hr i (by omega)) (hr (i + 1) (by omega))
        refine ⟨c, fun _ => ⟨h1, h2, ?_⟩⟩
        rw [Function.iterate_succ_apply']; exact h3
      · exact ⟨0, fun h => absurd h hi⟩
    choose z hz using hz
    have hle : ∀ d i, i + d = n + 1 → y i ≤ 1 := by
      intro d
      induction d with
      | zero => intro i hi; rw [show i = n + 1 by omega, y1]
      | succ d ih => intro i hi; exact (hy i (by omega)).le.trans (ih (i + 1) (by omega))
    refine ⟨fun i => if i = 0 then -1 else z (i - 1), by simp, ?_, ?_, ?_⟩
    · intro i hi
      rcases i with _ | i
      · have := (hz 0 (by omega)).1
        rw [y0] at this
        simpa using this
      · simp only [Nat.add_eq_zero_iff, one_ne_zero, and_false, if_false, Nat.add_sub_cancel]
        exact (hz i (by omega)).2.1.trans (hz (i + 1) (by omega)).1
    · intro i hi
      rcases i with _ | i
      · norm_num
      · simp only [Nat.add_eq_zero_iff, one_ne_zero, and_false, if_false, Nat.add_sub_cancel]
        exact (hz i (by omega)).2.1.trans_le (hle (n + 1 - (i + 1)) (i + 1) (by omega))
    · intro i hi
      rcases i with _ | i
      · simpa using rod_left (n + 1) (n + 1) (by omega)
      · simp only [Nat.add_eq_zero_iff, one_ne_zero, and_false, if_false, Nat.add_sub_cancel]
        exact (hz i (by omega)).2.2

/-- The integral over the reference interval. -/
noncomputable def J (f : ℝ[X]) : ℝ := ∫ t in (-1 : ℝ)..1, f.eval t

theorem J_derivative (P : ℝ[X]) : J (derivative P) = P.eval 1 - P.eval (-1) :=
  intervalIntegral.integral_eq_sub_of_hasDerivAt (fun x _ => P.hasDerivAt x)
    ((derivative P).continuous.intervalIntegrable _ _)

theorem J_add (f g : ℝ[X]) : J (f + g) = J f + J g := by
  simp only [J, eval_add]
  exact intervalIntegral.integral_add (f.continuous.intervalIntegrable _ _) (g.continuous.intervalIntegrable _ _)

theorem J_C_mul (c : ℝ) (f : ℝ[X]) : J (C c * f) = c * J f := by
  simp [J, intervalIntegral.integral_const_mul]

theorem J_sum {ι : Type*} (s : Finset ι) (f : ι → ℝ[X]) : J (∑ i ∈ s, f i) = ∑ i ∈ s, J (f i) := by
  simp only [J, eval_finset_sum]
  exact intervalIntegral.integral_finset_sum fun i _ => (f i).continuous.intervalIntegrable _ _

theorem J_sq_pos (f : ℝ[X]) (h : f ≠ 0) : 0 < J (f * f) := by
  have hc : Continuous fun t => (f * f).eval t := (f * f).continuous
  obtain ⟨c, hc1, hc2⟩ : ∃ c ∈ Set.Icc (-1 : ℝ) 1, f.eval c ≠ 0 := by
    by_contra hno
    push Not at hno
    apply h
    apply eq_zero_of_infinite_isRoot
    exact (Set.Icc_infinite (by norm_num : (-1 : ℝ) < 1)).mono fun x hx => hno x hx
  apply intervalIntegral.integral_pos (by norm_num) hc.continuousOn
  · intro x _; simp only [eval_mul]; exact mul_self_nonneg _
  · exact ⟨c, hc1, by simp only [eval_mul]; exact mul_self_pos.2 hc2⟩

/-- Integration by parts. -/
theorem J_orth (n : ℕ) : ∀ (A q : ℝ[X]), (∀ j, j < n → (derivative^[j] A).eval 1 = 0) →
    (∀ j, j < n → (derivative^[j] A).eval (-1) = 0) → q.natDegree < n → J (derivative^[n] A * q) = 0 := by
  induction n with
  | zero => intro A q _ _ h; omega
  | succ n ih =>
    intro A q h1 h2 hq
    have hp := J_derivative (derivative^[n] A * q)
    rw [derivative_mul, J_add, ← Function.iterate_succ_apply' derivative] at hp
    simp only [eval_mul, h1 n (by omega), h2 n (by omega), zero_mul, sub_zero] at hp
    have h0 : J (derivative^[n] A * derivative q) = 0 := by
      rcases Nat.eq_zero_or_pos n with hn | hn
      · subst hn
        rw [derivative_of_natDegree_zero (by omega)]
        simp [J]
      · apply ih A _ (fun j hj => h1 j (by omega)) (fun j hj => h2 j (by omega))
        have := natDegree_derivative_le q
        omega
    linarith

theorem rod_natDegree (n : ℕ) : (rod n).natDegree ≤ 2 * n + 1 := by
  have h1 : (1 - X : ℝ[X]).natDegree ≤ 1 := by
    rw [show (1 - X : ℝ[X]) = -(X - C 1) by simp, natDegree_neg, natDegree_X_sub_C]
  have h2 : (X + 1 : ℝ[X]).natDegree ≤ 1 := by rw [← C_1, natDegree_X_add_C]
  refine natDegree_mul_le.trans ?_
  have e1 := natDegree_pow_le (p := (1 - X : ℝ[X])) (n := n)
  have e2 := natDegree_pow_le (p := (X + 1 : ℝ[X])) (n := n + 1)
  nlinarith

theorem rod_ne_zero (n : ℕ) : derivative^[n] (rod n) ≠ 0 := by
  intro h
  have hm : rod n = C ((-1) ^ n) * ((X - C 1) ^ n * (X + C 1) ^ (n + 1)) := by
    rw [rod, show (1 - X : ℝ[X]) = C (-1) * (X - C 1) by simp, mul_pow, C_pow, C_1, mul_assoc]
  have hmon : ((X - C 1 : ℝ[X]) ^ n * (X + C 1) ^ (n + 1)).Monic :=
    ((monic_X_sub_C 1).pow n).mul ((monic_X_add_C 1).pow (n + 1))
  have hdeg : ((X - C 1 : ℝ[X]) ^ n * (X + C 1) ^ (n + 1)).natDegree = n + 1 + n := by
    rw [((monic_X_sub_C 1).pow n).natDegree_mul ((monic_X_add_C 1).pow (n + 1)),
      (monic_X_sub_C (1 : ℝ)).natDegree_pow, (monic_X_add_C (1 : ℝ)).natDegree_pow, natDegree_X_sub_C, natDegree_X_add_C]
    ring
  have hcoef := coeff_iterate_derivative (k := n) (rod n) (n + 1)
  rw [h, coeff_zero, hm, coeff_C_mul, ← hdeg, hmon.coeff_natDegree, nsmul_eq_mul] at hcoef
  have hd : (((n + 1 + n).descFactorial n : ℕ) : ℝ) ≠ 0 := by
    rw [Ne, Nat.cast_eq_zero, Nat.descFactorial_eq_zero_iff_lt]; omega
  rw [hdeg] at hcoef
  have : ((-1 : ℝ) ^ n) ≠ 0 := pow_ne_zero _ (by norm_num)
  rcases mul_eq_zero.1 hcoef.symm with h' | h'
  · exact hd h'
  · exact this (by simpa using h')

theorem rod_degree (n : ℕ) : (derivative^[n] (rod n)).natDegree ≤ n + 1 := by
  have h1 := natDegree_iterate_derivative (rod n) n
  have h2 := rod_natDegree n
  omega

section quad

variable {n : ℕ} {x : Fin (n + 1) → ℝ}

/-- The nodal polynomial is a multiple of the derivative above. -/
theorem nodal_rod (hx : Function.Injective x) (h0 : ∀ i, (derivative^[n] (rod n)).eval (x i) = 0) :
    ∃ c : ℝ, Lagrange.nodal Finset.univ x = C c * derivative^[n] (rod n) := by
  set R := derivative^[n] (rod n) with hR
  have hmon : (Lagrange.nodal Finset.univ x).Monic := Lagrange.nodal_monic
  have hnd : (Lagrange.nodal Finset.univ x).natDegree = n + 1 := by simp [Lagrange.natDegree_nodal]
  have hdvd : Lagrange.nodal Finset.univ x ∣ R := by
    rw [Lagrange.nodal]
    apply Finset.prod_dvd_of_coprime
    · intro i _ j _ hij
      exact pairwise_coprime_X_sub_C hx hij
    · intro i _
      exact dvd_iff_isRoot.2 (h0 i)
  obtain ⟨q, hq⟩ := hdvd
  have hR0 : R ≠ 0 := rod_ne_zero n
  have hq0 : q ≠ 0 := by rintro rfl; simp at hq; exact hR0 hq
  have hdeg : q.natDegree = 0 := by
    have h1 := rod_degree n
    rw [← hR, hq, hmon.natDegree_mul' hq0, hnd] at h1
    omega
  obtain ⟨c, hc⟩ := natDegree_eq_zero.1 hdeg
  have hc0 : c ≠ 0 := by rintro rfl; simp at hc; exact hq0 hc.symm
  refine ⟨c⁻¹, ?_⟩
  rw [hq, ← hc, mul_comm, mul_assoc, ← C_mul, mul_inv_cancel₀ hc0, C_1, mul_one]

/-- Interpolatory weights integrate exactly up to degree `2 n`. -/
theorem quad_exact (hx : Function.Injective x) (h0 : ∀ i, (derivative^[n] (rod n)).eval (x i) = 0) (f : ℝ[X])
    (hf : f.natDegree ≤ 2 * n) : ∑ j, J (Lagrange.basis Finset.univ x j) * f.eval (x j) = J f := by
  obtain ⟨c, hc⟩ := nodal_rod hx h0
  set M := Lagrange.nodal Finset.univ x with hM
  have hmon : M.Monic := Lagrange.nodal_monic
  have hnd : M.natDegree = n + 1 := by simp [hM, Lagrange.natDegree_nodal]
  have hMx : ∀ i, M.eval (x i) = 0 := fun i => Lagrange.eval_nodal_at_node (Finset.mem_univ i)
  have hdiv := modByMonic_add_div f M
  set r := f %ₘ M
  set q := f /ₘ M with hq
  have hr : r.degree < (n + 1 : ℕ) := by
    have := degree_modByMonic_lt f hmon
    rwa [degree_eq_natDegree hmon.ne_zero, hnd] at this
  have hJ0 : J (M * q) = 0 := by
    rcases Nat.eq_zero_or_pos n with hn | hn
    · have : q = 0 := by
        rw [hq, divByMonic_eq_zero_iff hmon, degree_eq_natDegree hmon.ne_zero, hnd]
        exact lt_of_le_of_lt degree_le_natDegree (by exact_mod_cast (by omega : f.natDegree < n + 1))
      rw [this]; simp [J]
    · have hqd : q.natDegree < n := by
        rw [hq, natDegree_divByMonic f hmon, hnd]; omega
      rw [hc, mul_assoc, J_C_mul, J_orth n (rod n) q (fun j hj => rod_right n j hj) (fun j hj => rod_left n j (by omega)) hqd,
        mul_zero]
  have hrint : r = ∑ j, C (r.eval (x j)) * Lagrange.basis Finset.univ x j := by
    have := Lagrange.eq_interpolate (s := Finset.univ) (v := x) (f := r) hx.injOn (by simpa using hr)
    rw [Lagrange.interpolate_apply] at this
    exact this
  have hJr : J r = ∑ j, J (Lagrange.basis Finset.univ x j) * r.eval (x j) := by
    conv_lhs => rw [hrint]
    rw [J_sum]
    exact Finset.sum_congr rfl fun j _ => by rw [J_C_mul, mul_comm]
  have hev : ∀ j, f.eval (x j) = r.eval (x j) := by
    intro j
    conv_lhs => rw [← hdiv]
    rw [eval_add, eval_mul, hMx, zero_mul, add_zero]
  rw [show J f = J (r + M * q) by rw [hdiv], J_add, hJ0, add_zero, hJr]
  exact Finset.sum_congr rfl fun j _ => by rw [hev]

theorem weight_pos (hx : Function.Injective x) (h0 : ∀ i, (derivative^[n] (rod n)).eval (x i) = 0) (j : Fin (n + 1)) :
    0 < J (Lagrange.basis Finset.univ x j) := by
  have hd : (Lagrange.basis Finset.univ x j).natDegree = n := by
    rw [Lagrange.natDegree_basis hx.injOn (Finset.mem_univ j)]; simp
  have hb : (Lagrange.basis Finset.univ x j) ≠ 0 := Lagrange.basis_ne_zero hx.injOn (Finset.mem_univ j)
  have h := quad_exact hx h0 (Lagrange.basis Finset.univ x j * Lagrange.basis Finset.univ x j)
    (natDegree_mul_le.trans (by omega))
  rw [Finset.sum_eq_single j] at h
  · rw [eval_mul, Lagrange.eval_basis_self hx.injOn (Finset.mem_univ j)] at h
    have := J_sq_pos _ hb
    linarith
  · intro i _ hij
    rw [eval_mul, Lagrange.eval_basis_of_ne hij.symm (Finset.mem_univ i)]; simp
  · simp

end quad

/-- The nodes of the rule with `n + 1` points. -/
noncomputable def lgrNode (n : ℕ) : ℕ → ℝ := (lgr_points n).choose

theorem lgrNode_lt (n : ℕ) : ∀ i j, i < j → j < n + 1 → lgrNode n i < lgrNode n j := by
  intro i j hij
  obtain ⟨d, rfl⟩ : ∃ d, j = i + 1 + d := ⟨j - (i + 1), by omega⟩
  induction d with
  | zero => intro h; exact (lgr_points n).choose_spec.2.1 i (by omega)
  | succ d ih =>
    intro h
    exact (ih (by omega) (by omega)).trans ((lgr_points n).choose_spec.2.1 (i + 1 + d) (by omega))

/-- Reference rules for every number of points over the reals, exact Lagrange coefficients, a linear search and the formula of
`refine_errors` (mesh.hpp:184). -/
noncomputable def realEnv : Env ℝ where
  node := fun K => lgrNode (K - 1)
  weight := fun K i => J (Lagrange.basis Finset.univ (fun j : Fin (K - 1 + 1) => lgrNode (K - 1) j) (Fin.ofNat _ i))
  basis := (lowEnv ℝ).basis
  search := (lowEnv ℝ).search
  growth := fun K e target => ⌊Real.log (e / target) / Real.log K + 1 + 1 / 2⌋₊

theorem realEnv_lgr (K : ℕ) (hK : 1 ≤ K) : IsLGR realEnv K := by
  obtain ⟨n, rfl⟩ : ∃ n, K = n + 1 := ⟨K - 1, by omega⟩
  have hs := (lgr_points n).choose_spec
  have hinj : Function.Injective fun j : Fin (n + 1) => lgrNode n j := by
    have : StrictMono fun j : Fin (n + 1) => lgrNode n j := fun i j hij => lgrNode_lt n i j hij j.2
    exact this.injective
  have h0 : ∀ i : Fin (n + 1), (derivative^[n] (rod n)).eval (lgrNode n i) = 0 := fun i => hs.2.2.2 i i.2
  refine ⟨hs.1, fun i j hij hj => lgrNode_lt n i j hij hj, fun i hi => hs.2.2.1 i hi, fun i _ => weight_pos hinj h0 _, ?_⟩
  intro P hP
  rw [← J_derivative, ← quad_exact hinj h0 (derivative P) ((natDegree_derivative_le P).trans (by omega)), Finset.sum_range]
  refine Finset.sum_congr rfl fun j _ => ?_
  simp [realEnv]

theorem realEnv_lagrange : IsLagrange realEnv := isLagrange_of_basis _ fun _ _ _ _ => rfl

theorem realEnv_search : IsSearch realEnv := lowEnv_search

theorem realEnv_growth : GrowthPos realEnv := by
  intro K e target hK ht he
  simp only [realEnv]
  have h1 : 0 < Real.log (e / target) := Real.log_pos (by rw [lt_div_iff₀ ht]; linarith)
  have h2 : 0 < Real.log (K : ℝ) := Real.log_pos (by exact_mod_cast hK)
  have := div_pos h1 h2
  rw [Nat.le_floor_iff (by linarith)]
  push_cast
  linarith

section unique

variable {F : Type*} [Field F] [LinearOrder F] [IsStrictOrderedRing F]

theorem exists_antiderivative (f : F[X]) : ∃ P : F[X], derivative P = f ∧ P.natDegree ≤ f.natDegree + 1 := by
  refine ⟨∑ i ∈ Finset.range (f.natDegree + 1), C (f.coeff i / (i + 1)) * X ^ (i + 1), ?_, ?_⟩
  · rw [derivative_sum]
    conv_rhs => rw [as_sum_range_C_mul_X_pow f]
    refine Finset.sum_congr rfl fun i _ => ?_
    have : ((i : F) + 1) ≠ 0 := by positivity
    rw [derivative_C_mul_X_pow, Nat.add_sub_cancel]
    push_cast
    rw [div_mul_cancel₀ _ this]
  · apply natDegree_sum_le_of_forall_le
    intro i hi
    rw [Finset.mem_range] at hi
    exact (natDegree_C_mul_X_pow_le _ _).trans (by omega)

theorem quad_eq (e1 e2 : Env F) (K : ℕ) (hK : 1 ≤ K) (h1 : IsLGR e1 K) (h2 : IsLGR e2 K) (f : F[X])
    (hf : f.natDegree ≤ 2 * K - 2) : ∑ j : Fin K, e1.weight K j * f.eval (e1.node K j) =
      ∑ j : Fin K, e2.weight K j * f.eval (e2.node K j) := by
  obtain ⟨P, rfl, hP⟩ := exists_antiderivative f
  have a1 := h1.exact P (by omega)
  have a2 := h2.exact P (by omega)
  rw [Finset.sum_range] at a1 a2
  rw [a1, a2]

/-- The assumptions on the reference rule determine it: two rules with the same number of points have the same nodes and
weights. -/
theorem lgr_unique (e1 e2 : Env F) (K : ℕ) (hK : 1 ≤ K)
    (h1 : IsLGR e1 K) (h2 : IsLGR e2 K) : ∀ i, i < K → e1.node K i = e2.node K i ∧ e1.weight K i = e2.weight K i := by
  set x : Fin K → F := fun j => e1.node K j with hx
  set y : Fin K → F := fun j => e2.node K j with hy
  have mx : StrictMono x := fun i j hij => h1.increasing i j hij j.2
  have my : StrictMono y := fun i j hij => h2.increasing i j hij j.2
  set M1 := Lagrange.nodal Finset.univ x with hM1
  set M2 := Lagrange.nodal Finset.univ y with hM2
  have m1 : M1.Monic := Lagrange.nodal_monic
  have m2 : M2.Monic := Lagrange.nodal_monic
  have d1 : M1.degree = K := by simp [hM1, Lagrange.degree_nodal]
  have d2 : M2.degree = K := by simp [hM2, Lagrange.degree_nodal]
  have z1 : ∀ i, M1.eval (x i) = 0 := fun i => Lagrange.eval_nodal_at_node (Finset.mem_univ i)
  have z2 : ∀ i, M2.eval (y i) = 0 := fun i => Lagrange.eval_nodal_at_node (Finset.mem_univ i)
  have hMM : M1 = M2 := by
    by_contra hne
    have hD : M1 - M2 ≠ 0 := sub_ne_zero.2 hne
    have hDd : (M1 - M2).degree < K := by
      have := degree_sub_lt_left (p := M1) (q := M2) (d1.trans d2.symm) m1.ne_zero (by rw [m1.leadingCoeff, m2.leadingCoeff])
      rwa [d1] at this
    have hroot : (M1 - M2).IsRoot (-1) := by
      have a := z1 ⟨0, by omega⟩
      have b := z2 ⟨0, by omega⟩
      simp only [hx, hy, h1.first, h2.first] at a b
      simp [IsRoot, a, b]
    obtain ⟨d, hd⟩ := dvd_iff_isRoot.2 hroot
    have hd0 : d ≠ 0 := by rintro rfl; simp at hd; exact hD hd
    have hdd : d.natDegree + 1 < K := by
      have h3 : (M1 - M2).natDegree < K := by
        rw [natDegree_lt_iff_degree_lt hD]; exact hDd
      rw [hd, natDegree_mul (X_sub_C_ne_zero _) hd0, natDegree_X_sub_C] at h3
      omega
    have n1 : M1.natDegree = K := natDegree_eq_of_degree_eq_some d1
    have n2 : M2.natDegree = K := natDegree_eq_of_degree_eq_some d2
    have e2' := quad_eq e1 e2 K hK h1 h2 (M2 * d) (natDegree_mul_le.trans (by omega))
    have r2 : ∑ j : Fin K, e2.weight K j * (M2 * d).eval (e2.node K j) = 0 :=
      Finset.sum_eq_zero fun j _ => by rw [eval_mul, show M2.eval (e2.node K j) = 0 from z2 j]; ring
    rw [r2] at e2'
    have r1 : ∑ j : Fin K, e1.weight K j * ((e1.node K j + 1) * (d.eval (e1.node K j)) ^ 2) = 0 := by
      rw [← neg_eq_zero, ← e2', ← Finset.sum_neg_distrib]
      refine Finset.sum_congr rfl fun j _ => ?_
      have hv := congrArg (Polynomial.eval (e1.node K j)) hd
      rw [eval_sub, show M1.eval (e1.node K j) = 0 from z1 j, eval_mul] at hv
      simp only [eval_sub, eval_X, eval_C] at hv
      rw [eval_mul, show M2.eval (e1.node K j) = -((e1.node K j - -1) * d.eval (e1.node K j)) by rw [← hv]; ring]
      ring
    have hge : ∀ j : Fin K, -1 ≤ e1.node K j := by
      intro j
      rcases Nat.eq_zero_or_pos j with h | h
      · rw [h, h1.first]
      · have := h1.increasing 0 j h j.2
        rw [h1.first] at this
        exact this.le
    rw [Finset.sum_eq_zero_iff_of_nonneg (fun (j : Fin K) _ => mul_nonneg (h1.positive j j.2).le
      (mul_nonneg (by linarith [hge j]) (sq_nonneg _)))] at r1
    have hz : ∀ j : Fin (K - 1), d.eval (e1.node K (j + 1)) = 0 := by
      intro j
      have hj : (j : ℕ) + 1 < K := by omega
      have h := r1 ⟨j + 1, hj⟩ (Finset.mem_univ _)
      have hlt := h1.increasing 0 (j + 1) (by omega) hj
      rw [h1.first] at hlt
      rcases mul_eq_zero.1 h with h | h
      · exact absurd h (h1.positive _ hj).ne'
      · rcases mul_eq_zero.1 h with h | h
        · simp only at h; linarith
        · simpa using h
    have hinj : Function.Injective fun j : Fin (K - 1) => e1.node K (j + 1) := by
      have : StrictMono fun j : Fin (K - 1) => e1.node K (j + 1) := fun i j hij => by
        have : (i : ℕ) < j := hij
        exact h1.increasing _ _ (by omega) (by omega)
      exact this.injective
    have := card_roots' d
    apply hd0
    apply eq_zero_of_natDegree_lt_card_of_eval_eq_zero d hinj hz
    simp; omega
  have hrange : Set.range x = Set.range y := by
    ext t
    have a : ∀ (z : Fin K → F), (Lagrange.nodal Finset.univ z).eval t = 0 ↔ t ∈ Set.range z := by
      intro z
      rw [Lagrange.eval_nodal, Finset.prod_eq_zero_iff]
      constructor
      · rintro ⟨i, _, hi⟩; exact ⟨i, (sub_eq_zero.1 hi).symm⟩
      · rintro ⟨i, rfl⟩; exact ⟨i, Finset.mem_univ _, sub_self _⟩
    rw [← a x, ← a y, ← hM1, ← hM2, hMM]
  have hxy : x = y := (StrictMono.range_inj mx my).1 hrange
  intro i hi
  have hn : ∀ j : Fin K, e1.node K j = e2.node K j := fun j => congrFun hxy j
  refine ⟨hn ⟨i, hi⟩, ?_⟩
  have hL : (Lagrange.basis Finset.univ x ⟨i, hi⟩).natDegree = K - 1 := by
    rw [Lagrange.natDegree_basis mx.injective.injOn (Finset.mem_univ _)]; simp
  have hq := quad_eq e1 e2 K hK h1 h2 (Lagrange.basis Finset.univ x ⟨i, hi⟩) (by omega)
  have hval : ∀ w : Fin K → F, ∑ j : Fin K, w j * (Lagrange.basis Finset.univ x ⟨i, hi⟩).eval (x j) = w ⟨i, hi⟩ := by
    intro w
    rw [Finset.sum_eq_single ⟨i, hi⟩]
    · rw [Lagrange.eval_basis_self mx.injective.injOn (Finset.mem_univ _), mul_one]
    · intro j _ hj
      rw [Lagrange.eval_basis_of_ne hj.symm (Finset.mem_univ _), mul_zero]
    · simp
  have v1 := hval fun j => e1.weight K j
  have v2 := hval fun j => e2.weight K j
  simp only [hx] at v1 v2 hq
  simp only [← hn] at hq
  rw [v1, v2] at hq
  exact hq

end unique

end Verif.Mesh
