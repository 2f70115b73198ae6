import Verif.Proofs.MeshSlopeBound
import Mathlib.LinearAlgebra.FiniteDimensional.Lemmas
import Mathlib.LinearAlgebra.Dimension.Constructions

/-! # Collocation equations with a one-sided bound have one solution -/

namespace Verif.MeshFn

open Verif.Mesh Polynomial Matrix

theorem eval_mono {Q : ℝ[X]} {a b : ℝ} (h : ∀ y, a ≤ y → y ≤ b → 0 ≤ Q.derivative.eval y) : MonotoneOn (fun y => Q.eval y) (Set.Icc a b) := by
  refine monotoneOn_of_deriv_nonneg (convex_Icc a b) Q.differentiable.continuous.continuousOn Q.differentiable.differentiableOn fun y hy => ?_
  rw [interior_Icc] at hy
  rw [Polynomial.deriv]
  exact h y hy.1.le hy.2.le

/-- The rule on an interval. -/
theorem lgr_on {e : Env ℝ} {K : ℕ} (hv : IsLGR e K) (a b : ℝ) (R : ℝ[X]) (hR : R.natDegree ≤ 2 * K - 1) :
    ∑ j ∈ Finset.range K, e.weight K j * ((b - a) / 2 * R.derivative.eval (toMesh a b (e.node K j))) = R.eval b - R.eval a := by
  have hex := hv.exact (localPoly a b R) ((localPoly_natDegree a b R).trans hR)
  have h1 : toMesh a b 1 = b := by unfold toMesh; ring
  have h2 : toMesh a b (-1) = a := by unfold toMesh; ring
  simpa only [localPoly_derivative, eval_mul, eval_C, localPoly_eval, h1, h2] using hex

/-- On one interval only the zero polynomials satisfy homogeneous collocation equations whose one-sided bound times the length is below one. The degree does not matter. -/
theorem poly_zero {e : Env ℝ} {K n : ℕ} (hv : IsLGR e K) {a b : ℝ} (hab : a < b) (P : Fin n → ℝ[X]) (hP : ∀ k, (P k).natDegree ≤ K) (W : Fin n → ℝ)
    (hW : ∀ k, 0 < W k) (μ : ℝ) (hμ : μ * (b - a) < 1) (h0 : ∀ k, (P k).eval a = 0) (h1 : ∀ k, (P k).derivative.eval a = 0)
    (hs : ∀ i : Fin K, ∑ k, W k * ((P k).eval (toMesh a b (e.node K i)) * (P k).derivative.eval (toMesh a b (e.node K i))) ≤
      μ * ∑ k, W k * (P k).eval (toMesh a b (e.node K i)) ^ 2) : ∀ k, P k = 0 := by
  have hG : ∀ k, ∃ G, P k = (X - C a) ^ 2 * G := fun k => by
    obtain ⟨Q, hQ⟩ := dvd_iff_isRoot.2 (h0 k)
    have h2 := h1 k
    rw [hQ] at h2
    simp at h2
    obtain ⟨G, hG⟩ := dvd_iff_isRoot.2 h2
    exact ⟨G, by rw [hQ, hG]; ring⟩
  choose G hG using hG
  have hdeg : ∀ k, G k = 0 ∨ (G k).natDegree + 2 ≤ K := fun k => by
    by_cases h : G k = 0
    · exact Or.inl h
    · right
      have h2 := hP k
      rw [hG k, natDegree_mul (pow_ne_zero _ (X_sub_C_ne_zero a)) h, natDegree_pow, natDegree_X_sub_C] at h2
      omega
  -- antiderivatives
  have hR : ∀ k, ∃ R : ℝ[X], R.derivative = (X - C a) * G k ^ 2 ∧ R.natDegree ≤ 2 * K - 1 := fun k => by
    obtain ⟨R, h2, h3⟩ := exists_antideriv ((X - C a) * G k ^ 2)
    rcases hdeg k with h | h
    · exact ⟨0, by simp [h], by simp⟩
    · refine ⟨R, h2, h3.trans ?_⟩
      have h4 : ((X - C a) * G k ^ 2).natDegree ≤ 1 + 2 * (G k).natDegree :=
        natDegree_mul_le.trans (add_le_add (natDegree_X_sub_C a).le natDegree_pow_le)
      omega
  have hT : ∀ k, ∃ R : ℝ[X], R.derivative = (X - C a) ^ 2 * G k ^ 2 ∧ R.natDegree ≤ 2 * K - 1 := fun k => by
    obtain ⟨R, h2, h3⟩ := exists_antideriv ((X - C a) ^ 2 * G k ^ 2)
    rcases hdeg k with h | h
    · exact ⟨0, by simp [h], by simp⟩
    · refine ⟨R, h2, h3.trans ?_⟩
      have h4 : ((X - C a) ^ 2 * G k ^ 2).natDegree ≤ 2 * 1 + 2 * (G k).natDegree := by
        refine natDegree_mul_le.trans (add_le_add (natDegree_pow_le.trans ?_) natDegree_pow_le)
        rw [natDegree_X_sub_C]
      omega
  choose R hR1 hR2 using hR
  choose T hT1 hT2 using hT
  -- quadrature of `P' G` and of `P G`
  have q1 : ∀ k, ∑ j ∈ Finset.range K, e.weight K j * ((b - a) / 2 * ((P k).derivative.eval (toMesh a b (e.node K j)) * (G k).eval (toMesh a b (e.node K j)))) =
      (b - a) ^ 2 * (G k).eval b ^ 2 / 2 + ((R k).eval b - (R k).eval a) := fun k => by
    have h2 := lgr_on hv a b (C (1 / 2) * ((X - C a) ^ 2 * G k ^ 2) + R k) (by
      rcases hdeg k with h | h
      · simpa [h] using hR2 k
      · refine (natDegree_add_le _ _).trans (max_le ((natDegree_C_mul_le _ _).trans (natDegree_mul_le.trans ?_)) (hR2 k))
        have h4 : ((X - C a : ℝ[X]) ^ 2).natDegree ≤ 2 * 1 := natDegree_pow_le.trans (by rw [natDegree_X_sub_C])
        have h5 : (G k ^ 2).natDegree ≤ 2 * (G k).natDegree := natDegree_pow_le
        omega)
    have h3 : (C (1 / 2) * ((X - C a) ^ 2 * G k ^ 2) + R k).derivative = (P k).derivative * G k := by
      rw [hG k, derivative_add, hR1 k]
      simp only [derivative_mul, derivative_pow, derivative_sub, derivative_X, derivative_C]
      have : (C (1 / 2) : ℝ[X]) * 2 = 1 := by
        rw [show (2 : ℝ[X]) = C 2 from rfl, ← C_mul]
        norm_num
      simp only [Nat.cast_ofNat, map_ofNat]
      linear_combination ((X - C a) * G k ^ 2 + (X - C a) ^ 2 * G k * (G k).derivative) * this
    rw [h3] at h2
    simp only [eval_mul] at h2
    rw [h2]
    simp
    ring
  have q2 : ∀ k, ∑ j ∈ Finset.range K, e.weight K j * ((b - a) / 2 * ((P k).eval (toMesh a b (e.node K j)) * (G k).eval (toMesh a b (e.node K j)))) =
      (T k).eval b - (T k).eval a := fun k => by
    rw [← lgr_on hv a b (T k) (hT2 k), hT1 k]
    refine Finset.sum_congr rfl fun j _ => ?_
    rw [hG k]
    simp only [eval_mul, eval_pow]
    ring
  -- the inequality at the points, divided by the square of the distance
  have hp : ∀ j ∈ Finset.range K, ∑ k, W k * ((P k).derivative.eval (toMesh a b (e.node K j)) * (G k).eval (toMesh a b (e.node K j))) ≤
      μ * ∑ k, W k * ((P k).eval (toMesh a b (e.node K j)) * (G k).eval (toMesh a b (e.node K j))) := fun j hj => by
    have h2 := hs ⟨j, Finset.mem_range.1 hj⟩
    simp only at h2
    set y := toMesh a b (e.node K j)
    by_cases hy : y = a
    · rw [hy]
      simp [h0, h1]
    · have hpos : 0 < (y - a) ^ 2 := by
        have : y - a ≠ 0 := sub_ne_zero.2 hy
        positivity
      have e1 : ∀ k, (P k).eval y = (y - a) ^ 2 * (G k).eval y := fun k => by rw [hG k]; simp
      have e2 : ∑ k, W k * ((P k).eval y * (P k).derivative.eval y) = (y - a) ^ 2 * ∑ k, W k * ((P k).derivative.eval y * (G k).eval y) := by
        rw [Finset.mul_sum]
        refine Finset.sum_congr rfl fun k _ => ?_
        rw [e1]
        ring
      have e3 : ∑ k, W k * (P k).eval y ^ 2 = (y - a) ^ 2 * ∑ k, W k * ((P k).eval y * (G k).eval y) := by
        rw [Finset.mul_sum]
        refine Finset.sum_congr rfl fun k _ => ?_
        rw [e1]
        ring
      rw [e2, e3] at h2
      nlinarith
  have hsum : ∑ k, W k * ((b - a) ^ 2 * (G k).eval b ^ 2 / 2 + ((R k).eval b - (R k).eval a)) ≤ μ * ∑ k, W k * ((T k).eval b - (T k).eval a) := by
    simp only [← q1, ← q2]
    have swap : ∀ f : Fin n → ℕ → ℝ, ∑ k, W k * ∑ j ∈ Finset.range K, e.weight K j * ((b - a) / 2 * f k j) =
        ∑ j ∈ Finset.range K, e.weight K j * ((b - a) / 2 * ∑ k, W k * f k j) := fun f => by
      simp only [Finset.mul_sum]
      rw [Finset.sum_comm]
      refine Finset.sum_congr rfl fun j _ => Finset.sum_congr rfl fun k _ => by ring
    rw [swap, swap, Finset.mul_sum]
    refine Finset.sum_le_sum fun j hj => ?_
    have h2 := hp j hj
    have h3 := (hv.positive j (Finset.mem_range.1 hj)).le
    have h4 : 0 ≤ (b - a) / 2 := by linarith
    calc _ ≤ e.weight K j * ((b - a) / 2 * (μ * ∑ k, W k * ((P k).eval (toMesh a b (e.node K j)) * (G k).eval (toMesh a b (e.node K j))))) :=
          mul_le_mul_of_nonneg_left (mul_le_mul_of_nonneg_left h2 h4) h3
      _ = _ := by ring
  -- comparison of the integrals
  have hRn : ∀ k, 0 ≤ (R k).eval b - (R k).eval a := fun k => by
    have := eval_mono (Q := R k) (a := a) (b := b) (fun y hy _ => by
      rw [hR1]
      simp only [eval_mul, eval_pow, eval_sub, eval_X, eval_C]
      have : 0 ≤ y - a := by linarith
      positivity) (Set.left_mem_Icc.2 hab.le) (Set.right_mem_Icc.2 hab.le) hab.le
    exact sub_nonneg.2 this
  have hTn : ∀ k, 0 ≤ (T k).eval b - (T k).eval a := fun k => by
    have := eval_mono (Q := T k) (a := a) (b := b) (fun y _ _ => by
      rw [hT1]
      simp only [eval_mul, eval_pow, eval_sub, eval_X, eval_C]
      positivity) (Set.left_mem_Icc.2 hab.le) (Set.right_mem_Icc.2 hab.le) hab.le
    exact sub_nonneg.2 this
  have hTR : ∀ k, (T k).eval b - (T k).eval a ≤ (b - a) * ((R k).eval b - (R k).eval a) := fun k => by
    have := eval_mono (Q := C (b - a) * R k - T k) (a := a) (b := b) (fun y h2 h3 => by
      rw [derivative_sub, derivative_C_mul, hR1, hT1]
      simp only [eval_mul, eval_pow, eval_sub, eval_X, eval_C]
      have : 0 ≤ y - a := by linarith
      have : 0 ≤ b - y := by linarith
      have h4 : (b - a) * ((y - a) * (G k).eval y ^ 2) - (y - a) ^ 2 * (G k).eval y ^ 2 = (y - a) * (b - y) * (G k).eval y ^ 2 := by ring
      rw [h4]
      positivity) (Set.left_mem_Icc.2 hab.le) (Set.right_mem_Icc.2 hab.le) hab.le
    simp only [eval_mul, eval_sub, eval_C] at this
    linarith
  have hz : ∑ k, W k * ((R k).eval b - (R k).eval a) ≤ 0 := by
    have h2 : ∑ k, W k * ((R k).eval b - (R k).eval a) ≤ ∑ k, W k * ((b - a) ^ 2 * (G k).eval b ^ 2 / 2 + ((R k).eval b - (R k).eval a)) :=
      Finset.sum_le_sum fun k _ => mul_le_mul_of_nonneg_left (by have : 0 ≤ (b - a) ^ 2 * (G k).eval b ^ 2 / 2 := by positivity
                                                                 linarith) (hW k).le
    have h3 : ∑ k, W k * ((T k).eval b - (T k).eval a) ≤ (b - a) * ∑ k, W k * ((R k).eval b - (R k).eval a) := by
      rw [Finset.mul_sum]
      refine Finset.sum_le_sum fun k _ => ?_
      have := mul_le_mul_of_nonneg_left (hTR k) (hW k).le
      linarith
    have h4 : 0 ≤ ∑ k, W k * ((T k).eval b - (T k).eval a) := Finset.sum_nonneg fun k _ => mul_nonneg (hW k).le (hTn k)
    have h5 : 0 ≤ ∑ k, W k * ((R k).eval b - (R k).eval a) := Finset.sum_nonneg fun k _ => mul_nonneg (hW k).le (hRn k)
    rcases le_or_gt μ 0 with h | h
    · nlinarith
    · have h6 := mul_le_mul_of_nonneg_left h3 h.le
      nlinarith
  intro k
  have hk : (R k).eval b - (R k).eval a = 0 := by
    have h2 := (Finset.sum_eq_zero_iff_of_nonneg fun k _ => mul_nonneg (hW k).le (hRn k)).1
      (le_antisymm hz (Finset.sum_nonneg fun k _ => mul_nonneg (hW k).le (hRn k))) k (Finset.mem_univ k)
    exact (mul_eq_zero.1 h2).resolve_left (hW k).ne'
  have hm := eval_mono (Q := R k) (a := a) (b := b) (fun y hy _ => by
      rw [hR1]
      simp only [eval_mul, eval_pow, eval_sub, eval_X, eval_C]
      have : 0 ≤ y - a := by linarith
      positivity)
  have hc : R k = C ((R k).eval a) := eq_of_infinite_eval_eq _ _ ((Set.Icc_infinite hab).mono fun y hy => by
    have h2 := hm (Set.left_mem_Icc.2 hab.le) hy hy.1
    have h3 := hm hy (Set.right_mem_Icc.2 hab.le) hy.2
    simp only at h2 h3
    rw [Set.mem_setOf_eq, eval_C]
    linarith)
  have h2 : (X - C a) * G k ^ 2 = 0 := by rw [← hR1, hc, derivative_C]
  have h3 : G k = 0 := by
    rcases mul_eq_zero.1 h2 with h | h
    · exact absurd h (X_sub_C_ne_zero a)
    · exact pow_eq_zero_iff (two_ne_zero) |>.1 h
  rw [hG k, h3, mul_zero]

/-- The same on a mesh, for values at the nodes. -/
theorem colloc_zero {e : Env ℝ} (hB : IsLagrange e) {b : ℝ} {m : Mesh ℝ} {n : ℕ} (hi : (m.map Ival.tau0).Pairwise (· < ·))
    (hb : ∀ v ∈ m, v.tau0 < b) (hL : ∀ v ∈ m, 1 ≤ v.K ∧ IsLGR e v.K) (W : Fin n → ℝ) (hW : ∀ k, 0 < W k) (μ : ℝ)
    (hμ : ∀ p ∈ spans b m, μ * (p.2 - p.1.tau0) < 1) (Y : Fin n → ℕ → ℝ) (h0 : ∀ k, Y k 0 = 0)
    (hz : ∀ j, j < points m → (∀ k, Y k j = 0) → ∀ k, slope e (spans b m) (Y k) j = 0)
    (hs : ∀ j, j < points m → ∑ k, W k * (Y k j * slope e (spans b m) (Y k) j) ≤ μ * ∑ k, W k * Y k j ^ 2) (k : Fin n) (j : ℕ) (hj : j ≤ points m) :
    Y k j = 0 := by
  induction m generalizing Y j with
  | nil =>
    obtain rfl : j = 0 := by simpa [points] using hj
    exact h0 k
  | cons v m ih =>
    have hsp : spans b (v :: m) = (v, headOr b m) :: spans b m := by cases m <;> simp [spans, headOr]
    have hpts : points (v :: m) = v.K + points m := by simp [points]
    obtain ⟨hK, hv⟩ := hL v (by simp)
    have hvb : v.tau0 < headOr b m := by
      cases m with
      | nil => exact hb v (by simp)
      | cons w m =>
        rw [List.map_cons, List.pairwise_cons] at hi
        exact hi.1 _ (by simp [headOr])
    have hP : ∀ k, ∃ P : ℝ[X], P.natDegree ≤ v.K ∧ ∀ j : Fin (v.K + 1), P.eval (toMesh v.tau0 (headOr b m) (nodeExt e v.K j)) = Y k j := fun k =>
      exists_poly hv hvb fun j => Y k j
    choose P hP hPY using hP
    have hd : ∀ k (i : Fin v.K), slope e (spans b (v :: m)) (Y k) i = (P k).derivative.eval (toMesh v.tau0 (headOr b m) (e.node v.K i)) := fun k i => by
      rw [← diffmat_poly hv hB hvb (P k) (hP k) i, hsp, slope, dif_pos i.2]
      simp only [hPY, Matrix.vecMul, dotProduct]
      exact Finset.sum_congr rfl fun _ _ => mul_comm _ _
    have hn : ∀ k (i : Fin v.K), Y k i = (P k).eval (toMesh v.tau0 (headOr b m) (e.node v.K i)) := fun k i => by
      have := hPY k i.castSucc
      simp only [nodeExt, Fin.val_castSucc, if_pos i.2] at this
      exact this.symm
    have ht0 : toMesh v.tau0 (headOr b m) (e.node v.K 0) = v.tau0 := by rw [hv.first]; unfold toMesh; ring
    have hPz := poly_zero hv hvb P hP W hW μ (hμ (v, headOr b m) (by rw [hsp]; simp))
      (fun k => by
        have h2 := hn k ⟨0, hK⟩
        simp only [ht0] at h2
        exact h2.symm.trans (h0 k)) (fun k => by
        have h2 := hz 0 (by rw [hpts]; omega) h0 k
        rwa [hd k ⟨0, hK⟩, ht0] at h2) (fun i => by
        have := hs i (by rw [hpts]; have := i.2; omega)
        simpa only [hd, hn] using this)
    have hin : ∀ k (i : Fin (v.K + 1)), Y k i = 0 := fun k i => by rw [← hPY, hPz k, eval_zero]
    by_cases hjk : j ≤ v.K
    · exact hin k ⟨j, by omega⟩
    have hi' : (m.map Ival.tau0).Pairwise (· < ·) := by
      rw [List.map_cons, List.pairwise_cons] at hi; exact hi.2
    have hsl : ∀ k j, slope e (spans b (v :: m)) (Y k) (v.K + j) = slope e (spans b m) (fun i => Y k (v.K + i)) j := fun k j => by
      rw [hsp, slope, dif_neg (by omega), Nat.add_sub_cancel_left]
    have := ih hi' (fun w hw => hb w (List.mem_cons_of_mem _ hw)) (fun w hw => hL w (List.mem_cons_of_mem _ hw))
      (fun p hp => hμ p (by rw [hsp]; exact List.mem_cons_of_mem _ hp)) (fun k i => Y k (v.K + i)) (fun k => hin k (Fin.last _))
      (fun i hi hzero k => by
        rw [← hsl]
        exact hz (v.K + i) (by rw [hpts]; omega) hzero k)
      (fun i hi => by
        simpa only [hsl] using hs (v.K + i) (by rw [hpts]; omega)) (j - v.K) (by rw [hpts] at hj; omega)
    rwa [show v.K + (j - v.K) = j by omega] at this

theorem slope_comb (env : Env ℝ) (r : List (Ival ℝ × ℝ)) (a c : ℝ) (X Y : ℕ → ℝ) (p : ℕ) :
    slope env r (fun j => a * X j + c * Y j) p = a * slope env r X p + c * slope env r Y p := by
  induction r generalizing X Y p with
  | nil => simp [slope]
  | cons q r ih =>
    obtain ⟨v, b⟩ := q
    simp only [slope]
    split_ifs with h
    · rw [Finset.mul_sum, Finset.mul_sum, ← Finset.sum_add_distrib]
      exact Finset.sum_congr rfl fun k _ => by ring
    · exact ih _ _ _

/-- The `k`-th coordinates of values at `N + 1` nodes, by index. -/
def coordN {N n : ℕ} (Y : Fin (N + 1) → Fin n → ℝ) (k : Fin n) (i : ℕ) : ℝ := if h : i < N + 1 then Y ⟨i, h⟩ k else 0

theorem coordN_at {N n : ℕ} (Y : Fin (N + 1) → Fin n → ℝ) (k : Fin n) (i : Fin (N + 1)) : coordN Y k i = Y i k := by
  unfold coordN
  rw [dif_pos i.2]

/-- Linear collocation equations with a one-sided bound have exactly one solution from every initial value, for every disturbance. -/
theorem colloc_solve {e : Env ℝ} (hB : IsLagrange e) {b : ℝ} {m : Mesh ℝ} {n N : ℕ} (hN : N = points m) (hi : (m.map Ival.tau0).Pairwise (· < ·))
    (hb : ∀ v ∈ m, v.tau0 < b) (hL : ∀ v ∈ m, 1 ≤ v.K ∧ IsLGR e v.K) (W : Fin n → ℝ) (hW : ∀ k, 0 < W k) (μ : ℝ)
    (hμ : ∀ p ∈ spans b m, μ * (p.2 - p.1.tau0) < 1) (A : Fin N → Matrix (Fin n) (Fin n) ℝ)
    (hA : ∀ j y, ∑ k, W k * (y k * (A j *ᵥ y) k) ≤ μ * ∑ k, W k * y k ^ 2) (r : Fin N → Fin n → ℝ) (y0 : Fin n → ℝ) :
    ∃! Y : Fin (N + 1) → Fin n → ℝ, Y 0 = y0 ∧ ∀ (j : Fin N) k, slope e (spans b m) (coordN Y k) j = (A j *ᵥ Y j.castSucc) k + r j k := by
  let Φ : (Fin (N + 1) → Fin n → ℝ) →ₗ[ℝ] (Fin n → ℝ) × (Fin N → Fin n → ℝ) :=
    { toFun := fun Y => (Y 0, fun j k => slope e (spans b m) (coordN Y k) j - (A j *ᵥ Y j.castSucc) k)
      map_add' := fun Y Z => by
        refine Prod.ext rfl ?_
        funext j k
        have h1 : coordN (Y + Z) k = fun i => 1 * coordN Y k i + 1 * coordN Z k i := by
          funext i
          unfold coordN
          split_ifs <;> simp
        simp only [h1, slope_comb, Pi.add_apply, Prod.mk_add_mk, Matrix.mulVec_add]
        ring
      map_smul' := fun c Y => by
        refine Prod.ext rfl ?_
        funext j k
        have h1 : coordN (c • Y) k = fun i => c * coordN Y k i + 0 * coordN Y k i := by
          funext i
          unfold coordN
          split_ifs <;> simp
        simp only [h1, slope_comb, Pi.smul_apply, Prod.smul_mk, Matrix.mulVec_smul, smul_eq_mul, RingHom.id_apply]
        ring }
  have hinj : Function.Injective Φ := by
    rw [injective_iff_map_eq_zero]
    intro Y hY
    have h0 : Y 0 = 0 := congrArg Prod.fst hY
    have hs : ∀ (j : Fin N) k, slope e (spans b m) (coordN Y k) j = (A j *ᵥ Y j.castSucc) k := fun j k =>
      sub_eq_zero.1 (congrFun (congrFun (congrArg Prod.snd hY) j) k)
    have hc : ∀ k (j : Fin N), coordN Y k j = Y j.castSucc k := fun k j => coordN_at Y k j.castSucc
    have hall := colloc_zero hB hi hb hL W hW μ hμ (coordN Y) (fun k => by
        have := coordN_at Y k 0
        rw [h0] at this
        exact this) (fun j hj hz k => by
        rw [← hN] at hj
        have h1 : Y (⟨j, hj⟩ : Fin N).castSucc = 0 := funext fun k => by rw [← hc]; exact hz k
        rw [show j = ((⟨j, hj⟩ : Fin N) : ℕ) from rfl, hs, h1, Matrix.mulVec_zero, Pi.zero_apply]) (fun j hj => by
        rw [← hN] at hj
        have := hA ⟨j, hj⟩ (Y (⟨j, hj⟩ : Fin N).castSucc)
        simpa only [← hc, ← hs] using this)
    funext j k
    rw [← coordN_at Y k j]
    exact hall k j (by rw [← hN]; have := j.2; omega)
  have hsurj : Function.Surjective Φ := (LinearMap.injective_iff_surjective_of_finrank_eq_finrank (by
    simp only [Module.finrank_pi_fintype, Module.finrank_prod, Module.finrank_fin_fun, Finset.sum_const, Finset.card_univ, Fintype.card_fin, smul_eq_mul,
      Module.finrank_self]
    ring)).1 hinj
  obtain ⟨Y, hY⟩ := hsurj (y0, r)
  refine ⟨Y, ⟨congrArg Prod.fst hY, fun j k => ?_⟩, fun Z hZ => hinj ?_⟩
  · have h1 : slope e (spans b m) (coordN Y k) j - (A j *ᵥ Y j.castSucc) k = r j k := congrFun (congrFun (congrArg Prod.snd hY) j) k
    linarith
  · rw [hY]
    refine Prod.ext hZ.1 ?_
    funext j k
    have h1 := hZ.2 j k
    change slope e (spans b m) (coordN Z k) j - (A j *ᵥ Z j.castSucc) k = r j k
    rw [h1]
    ring

/-- Two solutions of collocation equations from the same initial value are equal if the right hand sides satisfy a one-sided Lipschitz condition. -/
theorem colloc_unique {e : Env ℝ} (hB : IsLagrange e) {b : ℝ} {m : Mesh ℝ} {n : ℕ} (hi : (m.map Ival.tau0).Pairwise (· < ·))
    (hb : ∀ v ∈ m, v.tau0 < b) (hL : ∀ v ∈ m, 1 ≤ v.K ∧ IsLGR e v.K) (W : Fin n → ℝ) (hW : ∀ k, 0 < W k) (μ : ℝ)
    (hμ : ∀ p ∈ spans b m, μ * (p.2 - p.1.tau0) < 1) (f : ℕ → (Fin n → ℝ) → Fin n → ℝ)
    (hf : ∀ j, j < points m → ∀ y z, ∑ k, W k * ((y k - z k) * (f j y k - f j z k)) ≤ μ * ∑ k, W k * (y k - z k) ^ 2) (Y Z : Fin n → ℕ → ℝ)
    (h0 : ∀ k, Y k 0 = Z k 0) (hY : ∀ j, j < points m → ∀ k, slope e (spans b m) (Y k) j = f j (fun l => Y l j) k)
    (hZ : ∀ j, j < points m → ∀ k, slope e (spans b m) (Z k) j = f j (fun l => Z l j) k) (k : Fin n) (j : ℕ) (hj : j ≤ points m) : Y k j = Z k j := by
  have hsl : ∀ k j, slope e (spans b m) (fun i => Y k i - Z k i) j = slope e (spans b m) (Y k) j - slope e (spans b m) (Z k) j := fun k j => by
    have := slope_comb e (spans b m) 1 (-1) (Y k) (Z k) j
    simp only [one_mul, neg_one_mul, ← sub_eq_add_neg] at this
    exact this
  refine sub_eq_zero.1 (colloc_zero hB hi hb hL W hW μ hμ (fun k i => Y k i - Z k i) (fun k => sub_eq_zero.2 (h0 k)) (fun j hj hz k => ?_)
    (fun j hj => ?_) k j hj)
  · have : (fun l => Y l j) = fun l => Z l j := funext fun l => sub_eq_zero.1 (hz l)
    rw [hsl, hY j hj, hZ j hj, this, sub_self]
  · simp only [hsl, hY j hj, hZ j hj]
    exact hf j hj _ _

end Verif.MeshFn
