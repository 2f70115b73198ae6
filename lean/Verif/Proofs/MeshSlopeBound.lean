import Verif.Proofs.MeshFnSlope
import Mathlib.Analysis.Calculus.Deriv.MeanValue
import Mathlib.Analysis.Calculus.Deriv.Polynomial

/-! # Values at the nodes are bounded by the first one and the slopes -/

namespace Verif.MeshFn

open Verif.Mesh Polynomial Matrix

theorem exists_antideriv (Q : ℝ[X]) : ∃ R : ℝ[X], R.derivative = Q ∧ R.natDegree ≤ Q.natDegree + 1 := by
  refine ⟨∑ k ∈ Finset.range (Q.natDegree + 1), monomial (k + 1) (Q.coeff k / (k + 1)), ?_, ?_⟩
  · rw [derivative_sum]
    conv_rhs => rw [as_sum_range' Q (Q.natDegree + 1) (by omega)]
    refine Finset.sum_congr rfl fun k _ => ?_
    rw [derivative_monomial]
    have : (k : ℝ) + 1 ≠ 0 := by positivity
    simp only [Nat.add_sub_cancel, Nat.cast_add, Nat.cast_one]
    rw [div_mul_cancel₀ _ this]
  · refine natDegree_sum_le_of_forall_le _ _ fun k hk => (natDegree_monomial_le _).trans ?_
    have := Finset.mem_range.1 hk
    omega

/-- On one interval a polynomial moves at most by its length times the largest slope at the collocation points. -/
theorem poly_move {e : Env ℝ} {K : ℕ} (hK : 1 ≤ K) (hv : IsLGR e K) {a b : ℝ} (hab : a < b) (P : ℝ[X]) (hP : P.natDegree ≤ K) (S : ℝ)
    (hS : ∀ i : Fin K, |P.derivative.eval (toMesh a b (e.node K i))| ≤ S) (x : ℝ) (hx : a ≤ x) (hxb : x ≤ b) :
    |P.eval x - P.eval a| ≤ (b - a) * S := by
  have hS0 : 0 ≤ S := (abs_nonneg _).trans (hS ⟨0, hK⟩)
  obtain ⟨R, hR, hRd⟩ := exists_antideriv (P.derivative ^ 2)
  have hRd : R.natDegree ≤ 2 * K - 1 := by
    have h1 : (P.derivative ^ 2).natDegree ≤ 2 * (K - 1) := by
      refine natDegree_pow_le.trans (Nat.mul_le_mul_left _ ((natDegree_derivative_le _).trans (by omega)))
    omega
  -- the rule
  have hex := hv.exact (localPoly a b R) ((localPoly_natDegree a b R).trans hRd)
  have h1 : toMesh a b 1 = b := by unfold toMesh; ring
  have h2 : toMesh a b (-1) = a := by unfold toMesh; ring
  simp only [localPoly_derivative, eval_mul, eval_C, localPoly_eval, h1, h2, hR, eval_pow] at hex
  have hw : ∑ j ∈ Finset.range K, e.weight K j = 2 := by
    have := hv.exact X (by rw [natDegree_X]; omega)
    simp only [derivative_X, eval_one, mul_one, eval_X] at this
    linarith
  have hRb : R.eval b - R.eval a ≤ (b - a) * S ^ 2 := by
    rw [← hex]
    calc _ ≤ ∑ j ∈ Finset.range K, e.weight K j * ((b - a) / 2 * S ^ 2) := by
          refine Finset.sum_le_sum fun j hj => ?_
          have hj := Finset.mem_range.1 hj
          refine mul_le_mul_of_nonneg_left (mul_le_mul_of_nonneg_left ?_ (by linarith)) (hv.positive j hj).le
          rw [← sq_abs]
          exact pow_le_pow_left₀ (abs_nonneg _) (hS ⟨j, hj⟩) 2
      _ = (b - a) * S ^ 2 := by rw [← Finset.sum_mul, hw]; ring
  have mono : ∀ (Q : ℝ[X]), (∀ y, 0 ≤ Q.derivative.eval y) → Monotone fun y => Q.eval y := fun Q hQ =>
    monotone_of_deriv_nonneg Q.differentiable fun y => by rw [Polynomial.deriv]; exact hQ y
  have hRx : R.eval x ≤ R.eval b := mono R (fun y => by rw [hR, eval_pow]; positivity) hxb
  -- Cauchy and Schwarz
  have hcs : ∀ c : ℝ, 0 ≤ (R.eval x - R.eval a) - 2 * c * (P.eval x - P.eval a) + c ^ 2 * (x - a) := by
    intro c
    have := mono (R - C (2 * c) * P + C (c ^ 2) * X) (fun y => by
      simp only [derivative_add, derivative_sub, derivative_C_mul, derivative_X, hR, eval_add, eval_sub, eval_mul, eval_C, eval_pow, eval_one]
      nlinarith [sq_nonneg (P.derivative.eval y - c)]) hx
    simp only [eval_add, eval_sub, eval_mul, eval_C, eval_X] at this
    linarith
  rcases hx.eq_or_lt with rfl | hx'
  · rw [sub_self, abs_zero]; exact mul_nonneg (by linarith) hS0
  have hd : 0 < x - a := by linarith
  have h3 := hcs ((P.eval x - P.eval a) / (x - a))
  have h4 : (P.eval x - P.eval a) ^ 2 ≤ (x - a) * (R.eval x - R.eval a) := by
    have h5 : (P.eval x - P.eval a) / (x - a) * (x - a) = P.eval x - P.eval a := div_mul_cancel₀ _ hd.ne'
    set c := (P.eval x - P.eval a) / (x - a)
    rw [← h5] at h3 ⊢
    nlinarith
  refine abs_le_of_sq_le_sq ?_ (mul_nonneg (by linarith) hS0)
  calc _ ≤ (x - a) * (R.eval x - R.eval a) := h4
    _ ≤ (b - a) * ((b - a) * S ^ 2) := mul_le_mul (by linarith) (by linarith)
        (by nlinarith [sq_nonneg (P.eval x - P.eval a)]) (by linarith)
    _ = _ := by ring

/-- All values are within the first one and the length times the largest slope. -/
theorem slope_bound {e : Env ℝ} (hB : IsLagrange e) {b : ℝ} {m : Mesh ℝ} (hne : m ≠ []) (hi : (m.map Ival.tau0).Pairwise (· < ·))
    (hb : ∀ v ∈ m, v.tau0 < b) (hL : ∀ v ∈ m, 1 ≤ v.K ∧ IsLGR e v.K) (X : ℕ → ℝ) (S : ℝ)
    (hs : ∀ j, j < points m → |slope e (spans b m) X j| ≤ S) (j : ℕ) (hj : j ≤ points m) : |X j - X 0| ≤ (b - headOr b m) * S := by
  induction m generalizing X j with
  | nil => exact absurd rfl hne
  | cons v m ih =>
    have hsp : spans b (v :: m) = (v, headOr b m) :: spans b m := by cases m <;> simp [spans, headOr]
    have hpts : points (v :: m) = v.K + points m := by simp [points]
    obtain ⟨hK, hv⟩ := hL v (by simp)
    have hvb : v.tau0 < headOr b m := by
      cases m with
      | nil => exact hb v (by simp)
      | cons w m =>
        rw [List.map_cons, List.pairwise_cons] at hi
        exact hi.1 _ (by simp [headOr])
    have hhb : headOr b m ≤ b := by
      cases m with
      | nil => exact le_rfl
      | cons w m => exact (hb w (by simp)).le
    have hh : headOr b (v :: m) = v.tau0 := rfl
    have hS0 : 0 ≤ S := (abs_nonneg _).trans (hs 0 (by rw [hpts]; omega))
    obtain ⟨P, hP, hPX⟩ := exists_poly hv hvb (fun k : Fin (v.K + 1) => X k)
    have hd := diffmat_poly hv hB hvb P hP
    have hP0 : P.eval v.tau0 = X 0 := by
      have := hPX 0
      simp only [nodeExt, Fin.val_zero, if_pos (show 0 < v.K from hK), hv.first] at this
      rw [← this]
      congr 1
      unfold toMesh; ring
    have hmove := poly_move hK hv hvb P hP S (fun i => by
      rw [← hd i]
      have := hs i (by rw [hpts]; have := i.2; omega)
      rw [hsp, slope, dif_pos i.2] at this
      simp only [hPX, Matrix.vecMul, dotProduct]
      simpa only [mul_comm] using this)
    have hin : ∀ k : Fin (v.K + 1), |X k - X 0| ≤ (headOr b m - v.tau0) * S := by
      intro k
      rw [← hP0, ← hPX k]
      have hn : -1 ≤ nodeExt e v.K k ∧ nodeExt e v.K k ≤ 1 := by
        unfold nodeExt
        split_ifs with hk
        · refine ⟨?_, (hv.below k hk).le⟩
          rcases Nat.eq_zero_or_pos (k : ℕ) with h0 | h0
          · rw [h0, hv.first]
          · rw [← hv.first]; exact (hv.increasing 0 k h0 hk).le
        · constructor <;> norm_num
      refine hmove _ ?_ ?_ <;> unfold toMesh <;> nlinarith
    rw [hh]
    have hS1 : (headOr b m - v.tau0) * S ≤ (b - v.tau0) * S := mul_le_mul_of_nonneg_right (by linarith) hS0
    by_cases hjk : j ≤ v.K
    · exact (hin ⟨j, by omega⟩).trans hS1
    · by_cases hm : m = []
      · subst hm
        rw [hpts, show points ([] : Mesh ℝ) = 0 from rfl] at hj
        omega
      have hi' : (m.map Ival.tau0).Pairwise (· < ·) := by
        rw [List.map_cons, List.pairwise_cons] at hi; exact hi.2
      have := ih hm hi' (fun w hw => hb w (List.mem_cons_of_mem _ hw)) (fun w hw => hL w (List.mem_cons_of_mem _ hw)) (fun j => X (v.K + j))
        (fun j hj => by
          have := hs (v.K + j) (by rw [hpts]; omega)
          rw [hsp, slope, dif_neg (by omega), Nat.add_sub_cancel_left] at this
          exact this) (j - v.K) (by rw [hpts] at hj; omega)
      simp only [add_zero] at this
      rw [show v.K + (j - v.K) = j by omega] at this
      have h2 := hin (Fin.last v.K)
      rw [Fin.val_last] at h2
      calc |X j - X 0| = |(X j - X v.K) + (X v.K - X 0)| := by ring_nf
        _ ≤ _ := abs_add_le _ _
        _ ≤ (b - headOr b m) * S + (headOr b m - v.tau0) * S := add_le_add this h2
        _ = _ := by ring

end Verif.MeshFn
