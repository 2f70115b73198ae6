import Verif.Proofs.PIDSe2Step
import Verif.Props.PIDSe2

/-! # The vehicle under PID control reaches its desired trajectory (C122) -/

namespace Verif.PIDSe2

open Verif.Lie Filter Topology

open scoped Matrix

theorem N_le (z : Fin 5 → ℝ) : N z ≤ 5 * ‖z‖ ^ 2 := by
  have : ∀ k, z k ^ 2 ≤ ‖z‖ ^ 2 := fun k => by
    rw [← sq_abs, ← Real.norm_eq_abs]
    exact pow_le_pow_left₀ (norm_nonneg _) (norm_le_pi_norm z k) 2
  unfold N
  linarith [this 0, this 1, this 2, this 3, this 4]

theorem le_N (z : Fin 5 → ℝ) : ‖z‖ ^ 2 ≤ N z := by
  have : ∀ k, z k ^ 2 ≤ N z := fun k => by
    have := sq_nonneg (z 0)
    have := sq_nonneg (z 1)
    have := sq_nonneg (z 2)
    have := sq_nonneg (z 3)
    have := sq_nonneg (z 4)
    unfold N
    fin_cases k <;> simp <;> linarith
  have h : ‖z‖ ≤ Real.sqrt (N z) := (pi_norm_le_iff_of_nonneg (Real.sqrt_nonneg _)).2 fun k => by
    rw [Real.norm_eq_abs]
    exact Real.abs_le_sqrt (this k)
  calc ‖z‖ ^ 2 ≤ Real.sqrt (N z) ^ 2 := pow_le_pow_left₀ (norm_nonneg _) h 2
    _ = N z := Real.sq_sqrt (N_nonneg z)

/-- A map whose linear part decreases the quadratic form decreases it nearby. -/
theorem V_nonlinear {f : (Fin 5 → ℝ) → Fin 5 → ℝ} {M : (Fin 5 → ℝ) →L[ℝ] (Fin 5 → ℝ)} (hf : HasFDerivAt f M 0) (h0 : f 0 = 0) (hM : ∀ z, V (M z) ≤ 124 / 125 * V z) :
    ∀ᶠ z in 𝓝 (0 : Fin 5 → ℝ), V (f z) ≤ 994 / 1000 * V z := by
  have := hf.isLittleO.def (show (0 : ℝ) < 1 / 100000 by norm_num)
  filter_upwards [this] with z hz
  rw [h0, sub_zero, sub_zero] at hz
  let d := f z - M z
  have e : f z = M z + d := by simp [d]
  have v0 := V_add (M z) d
  have v1 := hM z
  have v2 := (V_upper d).trans (mul_le_mul_of_nonneg_left (N_le d) (by norm_num))
  have v3 := V_lower z
  have v4 := le_N z
  have hd : ‖d‖ ^ 2 ≤ (1 / 100000 * ‖z‖) ^ 2 := pow_le_pow_left₀ (norm_nonneg _) hz 2
  rw [mul_pow] at hd
  rw [e]
  have n0 : 0 ≤ ‖z‖ ^ 2 := by positivity
  have n1 := V_nonneg z
  linarith

section

variable {X 𝔸 : Type*} [NormedRing 𝔸] [NormedAlgebra ℝ 𝔸] [FiniteDimensional ℝ 𝔸] [CompleteSpace 𝔸] {L : LieOps X ℝ 3} {mat : X → 𝔸} {hat : (Fin 3 → ℝ) →ₗ[ℝ] 𝔸}

/-- The desired pose at turn `k`. -/
noncomputable def des (L : LieOps X ℝ 3) (g0 : X) (k : ℕ) : X := L.rplus g0 (((k : ℝ) / 20) • ![1, 0, 2 / 5])

theorem des_succ (h : IsLie L mat hat) (g0 : X) (k : ℕ) : mat (des L g0 (k + 1)) = mat (des L g0 k) * NormedSpace.exp (hat at1) := by
  letI : NormedAlgebra ℚ 𝔸 := NormedAlgebra.restrictScalars ℚ ℝ 𝔸
  have e : (((k + 1 : ℕ) : ℝ) / 20) • (![1, 0, 2 / 5] : Fin 3 → ℝ) = ((k : ℝ) / 20) • ![1, 0, 2 / 5] + (1 / 20 : ℝ) • ![1, 0, 2 / 5] := by
    rw [← add_smul]
    push_cast
    congr 1
    ring
  have e1 : (at1 : Fin 3 → ℝ) = (1 / 20 : ℝ) • ![1, 0, 2 / 5] := by
    funext j
    fin_cases j <;> simp [at1]
    norm_num
  unfold des
  rw [h.rplus, h.rplus, mul_assoc, e, e1, map_add, NormedSpace.exp_add_of_commute]
  rw [map_smul, map_smul]
  exact ((Commute.refl _).smul_left _).smul_right _

/-- The state with the errors `z` at turn `k`. -/
noncomputable def put (L : LieOps X ℝ 3) (g0 : X) (k : ℕ) (z : Fin 5 → ℝ) : X × (Fin 3 → ℝ) := (L.rplus (des L g0 k) (ez z), ![1 + z 3, 0, 2 / 5 + z 4])

/-- Near the desired trajectory a turn of the program acts on the errors like `next`, and the quadratic form decreases. -/
theorem turn_near (h : IsLie L mat hat) (had : ∀ a, L.ad a = !![0, -a 2, a 1; a 2, 0, -a 0; 0, 0, 0]) {rminus : X → X → Fin 3 → ℝ}
    (hlog : ∃ ρ > 0, ∀ x a, ‖a‖ < ρ → rminus (L.rplus x a) x = a) :
    ∃ ε > 0, ∃ f : (Fin 5 → ℝ) → Fin 5 → ℝ, ∀ z, ‖z‖ < ε → V (f z) ≤ 994 / 1000 * V z ∧
      ∀ g0 (k : ℕ), alloc (want L rminus g0 ((k : ℝ) / 20) (put L g0 k z)) = ![-z 0 - z 3, -z 2 - z 4 - 3 / 10 * z 1] ∧
        step L (alloc (want L rminus g0 ((k : ℝ) / 20) (put L g0 k z))) (1 / 20) (put L g0 k z) = put L g0 (k + 1) (f z) := by
  obtain ⟨ρ, hρ, hl⟩ := hlog
  obtain ⟨g, G, h1, h2, h3⟩ := h.local_log 0 (by rw [h.drExp_zero]; simp)
  have g1 : HasFDerivAt g G 1 := by simpa using h2
  have g2 : ∀ b, G (hat b) = b := fun b => by
    have := h3 b
    rwa [h.drExp_zero, map_zero, NormedSpace.exp_zero, one_mul, Matrix.one_mulVec] at this
  obtain ⟨c1, c2, b1, b2, M, hM, eM⟩ := next_deriv h had g1 g2
  have g0' : g 1 = 0 := by
    have := h1.self_of_nhds
    rwa [map_zero, NormedSpace.exp_zero] at this
  have n0 : next hat g 0 = 0 := by
    funext j
    fin_cases j <;> simp [next, zz_zero h, g0']
  have hV := V_nonlinear hM n0 fun z => by
    rw [eM]
    exact V_turn b1 b2 z
  -- the logarithm is one nearby
  have hexp : ∀ᶠ z in 𝓝 (0 : Fin 5 → ℝ), NormedSpace.exp (hat (g (zz hat z))) = zz hat z := by
    obtain ⟨ε, hε, hb⟩ := Metric.eventually_nhds_iff.1 h1
    obtain ⟨δ, hδ, hch⟩ := h.chart (L.exp 0) ε hε
    have e1 : mat (L.exp 0) = 1 := by rw [h.exp, map_zero, NormedSpace.exp_zero]
    obtain ⟨D, d, -⟩ := zz_deriv h
    have hc : Tendsto (zz hat) (𝓝 0) (𝓝 1) := by
      have := d.continuousAt.tendsto
      rwa [zz_zero h] at this
    filter_upwards [hc (Metric.ball_mem_nhds 1 hδ)] with z hz
    have e2 : mat (L.rplus (L.rplus (L.exp (-at1)) (ez z)) (at1 + iz z)) = zz hat z := by
      rw [h.rplus, h.rplus, h.exp, map_neg]
      rfl
    obtain ⟨a, ha, e⟩ := hch (L.rplus (L.rplus (L.exp (-at1)) (ez z)) (at1 + iz z)) (by
      rw [e1, e2]
      have := Metric.mem_ball.1 hz
      rwa [dist_eq_norm] at this)
    have e3 : zz hat z = NormedSpace.exp (hat a) := by
      rw [← e2, e, h.rplus, e1, one_mul]
    rw [e3]
    congr 2
    exact hb (by rwa [dist_zero_right])
  obtain ⟨ε, hε, hb⟩ := Metric.eventually_nhds_iff.1 (hV.and hexp)
  refine ⟨min ε (min ρ (1 / 3)), by positivity, next hat g, fun z hz => ?_⟩
  have hz1 : ‖z‖ < ε := hz.trans_le (min_le_left _ _)
  have hz2 : ‖z‖ < ρ := hz.trans_le ((min_le_right _ _).trans (min_le_left _ _))
  have hz3 : ‖z‖ < 1 / 3 := hz.trans_le ((min_le_right _ _).trans (min_le_right _ _))
  obtain ⟨v1, v2⟩ := hb (y := z) (by rwa [dist_zero_right])
  refine ⟨v1, fun g0 k => ?_⟩
  have hzk : ∀ k, |z k| < 1 / 3 := fun k => lt_of_le_of_lt (norm_le_pi_norm z k) hz3
  have hez : ‖-ez z‖ < ρ := by
    rw [norm_neg]
    refine lt_of_le_of_lt ((pi_norm_le_iff_of_nonneg (norm_nonneg z)).2 fun j => ?_) hz2
    rw [ez_eq]
    fin_cases j
    · exact norm_le_pi_norm z 0
    · exact norm_le_pi_norm z 1
    · exact norm_le_pi_norm z 2
  have hr : rminus (des L g0 k) (L.rplus (des L g0 k) (ez z)) = -ez z := by
    have := hl (L.rplus (des L g0 k) (ez z)) (-ez z) hez
    rwa [h.rplus_neg] at this
  have hw : want L rminus g0 ((k : ℝ) / 20) (put L g0 k z) = ![-z 0 - z 3, -z 1, -z 2 - z 4] := by
    funext j
    change rminus (des L g0 k) (L.rplus (des L g0 k) (ez z)) j + (vdes j - (![1 + z 3, 0, 2 / 5 + z 4] : Fin 3 → ℝ) j) = _
    rw [hr, ez_eq]
    fin_cases j <;> simp [vdes] <;> ring
  have ha : alloc (want L rminus g0 ((k : ℝ) / 20) (put L g0 k z)) = ![-z 0 - z 3, -z 2 - z 4 - 3 / 10 * z 1] := by
    have q0 := abs_lt.1 (hzk 0)
    have q1 := abs_lt.1 (hzk 1)
    have q2 := abs_lt.1 (hzk 2)
    have q3 := abs_lt.1 (hzk 3)
    have q4 := abs_lt.1 (hzk 4)
    rw [hw]
    funext j
    fin_cases j
    · change clamp (-z 0 - z 3) = -z 0 - z 3
      exact clamp_of_abs (abs_le.2 ⟨by linarith, by linarith⟩)
    · change clamp (-z 2 - z 4 + 3 / 10 * -z 1) = -z 2 - z 4 - 3 / 10 * z 1
      rw [clamp_of_abs (abs_le.2 ⟨by linarith, by linarith⟩)]
      ring
  refine ⟨ha, ?_⟩
  rw [ha, step_eq]
  refine Prod.ext ?_ ?_
  · refine h.mat_inj ?_
    have e1 : (1 / 20 : ℝ) • (![1 + z 3, 0, 2 / 5 + z 4] : Fin 3 → ℝ) + ((1 / 20 : ℝ) ^ 2 / 2) • ![-z 0 - z 3, 0, -z 2 - z 4 - 3 / 10 * z 1] = at1 + iz z := by
      rw [iz_eq]
      funext j
      fin_cases j <;> simp [at1] <;> ring
    have e2 : ez (next hat g z) = g (zz hat z) := by
      rw [ez_eq]
      funext j
      fin_cases j <;> rfl
    simp only [put, Matrix.cons_val_zero, Matrix.cons_val_one]
    rw [e1, e2, h.rplus, h.rplus, h.rplus, v2, des_succ h, zz]
    rw [mul_assoc (mat _) (NormedSpace.exp (hat at1)), ← mul_assoc (NormedSpace.exp (hat at1)), ← mul_assoc (NormedSpace.exp (hat at1)), exp_mul_neg, one_mul, mul_assoc]
  · funext j
    fin_cases j <;> simp [put, next] <;> ring

theorem free_near {rminus : X → X → Fin 3 → ℝ} {ε : ℝ} (hε : 0 < ε) {f : (Fin 5 → ℝ) → Fin 5 → ℝ} (hf : ∀ z, ‖z‖ < ε → V (f z) ≤ 994 / 1000 * V z ∧
      ∀ g0 (k : ℕ), alloc (want L rminus g0 ((k : ℝ) / 20) (put L g0 k z)) = ![-z 0 - z 3, -z 2 - z 4 - 3 / 10 * z 1] ∧
        step L (alloc (want L rminus g0 ((k : ℝ) / 20) (put L g0 k z))) (1 / 20) (put L g0 k z) = put L g0 (k + 1) (f z)) (g0 : X) (n k j : ℕ) (z : Fin 5 → ℝ) (hz : 4 * V z < ε ^ 2)
    {r : (X × (Fin 3 → ℝ)) × (Fin 2 → ℝ)} (h : (free L rminus g0 n k (put L g0 k z))[j]? = some r) :
    ∃ y, V y ≤ (994 / 1000) ^ j * V z ∧ r = (put L g0 (k + j) y, ![-y 0 - y 3, -y 2 - y 4 - 3 / 10 * y 1]) := by
  induction n generalizing k j z with
  | zero => simp [free] at h
  | succ n ih =>
    have hn : ‖z‖ < ε := by
      have h1 := le_N z
      have h2 := V_lower z
      refine lt_of_pow_lt_pow_left₀ 2 hε.le ?_
      linarith
    obtain ⟨h1, h2⟩ := hf z hn
    obtain ⟨h3, h4⟩ := h2 g0 k
    cases j with
    | zero =>
      simp only [free, List.getElem?_cons_zero, Option.some.injEq] at h
      exact ⟨z, by simp, by rw [← h, h3]; rfl⟩
    | succ j =>
      simp only [free, List.getElem?_cons_succ] at h
      rw [h4] at h
      have hv := V_nonneg z
      obtain ⟨y, y1, y2⟩ := ih (k + 1) j (f z) (by linarith) h
      refine ⟨y, y1.trans ?_, ?_⟩
      · rw [pow_succ, mul_assoc]
        exact mul_le_mul_of_nonneg_left h1 (by positivity)
      · rw [y2, show k + 1 + j = k + (j + 1) by omega]

/-- **The vehicle reaches its desired trajectory.** On every group of motions of the plane (`hat` and `mat` are its matrices, `ad` its bracket, the difference is right for close
poses), from every state close enough to the desired one without lateral velocity, the errors of pose and velocity and the inputs decay at least as fast as `0.997 ^ k`, whatever
the frame `g0` and however many turns. -/
theorem pid_se2_converges (h : IsLie L mat hat) (had : ∀ a, L.ad a = !![0, -a 2, a 1; a 2, 0, -a 0; 0, 0, 0]) {rminus : X → X → Fin 3 → ℝ}
    (hlog : ∃ ρ > 0, ∀ x a, ‖a‖ < ρ → rminus (L.rplus x a) x = a) :
    ∃ δ > 0, ∀ (one g0 : X) (n : ℕ) (e v : Fin 3 → ℝ), v 1 = 0 → ‖e‖ < δ → ‖v - ![1, 0, 2 / 5]‖ < δ →
      ∀ (k : ℕ) r, (main L rminus one g0 n (L.rplus g0 e, v))[k]? = some r →
        (∃ a, r.1.1 = L.rplus (L.rplus g0 (((k : ℝ) / 20) • ![1, 0, 2 / 5])) a ∧ ‖a‖ ≤ 100 * (997 / 1000) ^ k * max ‖e‖ ‖v - ![1, 0, 2 / 5]‖) ∧
        ‖r.1.2 - ![1, 0, 2 / 5]‖ ≤ 100 * (997 / 1000) ^ k * max ‖e‖ ‖v - ![1, 0, 2 / 5]‖ ∧ ‖r.2‖ ≤ 100 * (997 / 1000) ^ k * max ‖e‖ ‖v - ![1, 0, 2 / 5]‖ := by
  obtain ⟨ε, hε, f, hf⟩ := turn_near h had hlog
  refine ⟨ε / 39, by positivity, fun one g0 n e v hv he hv' k r hr => ?_⟩
  set w : Fin 3 → ℝ := v - ![1, 0, 2 / 5] with hw
  set m : ℝ := max ‖e‖ ‖w‖ with hm
  let z : Fin 5 → ℝ := ![e 0, e 1, e 2, w 0, w 2]
  have hm0 : 0 ≤ m := (norm_nonneg e).trans (le_max_left _ _)
  have hzm : ‖z‖ ≤ m := (pi_norm_le_iff_of_nonneg hm0).2 fun j => by
    fin_cases j
    · exact (norm_le_pi_norm e 0).trans (le_max_left _ _)
    · exact (norm_le_pi_norm e 1).trans (le_max_left _ _)
    · exact (norm_le_pi_norm e 2).trans (le_max_left _ _)
    · exact (norm_le_pi_norm w 0).trans (le_max_right _ _)
    · exact (norm_le_pi_norm w 2).trans (le_max_right _ _)
  have hzm2 : ‖z‖ ^ 2 ≤ m ^ 2 := pow_le_pow_left₀ (norm_nonneg _) hzm 2
  have hV : V z ≤ 370 * m ^ 2 := by
    have := V_upper z
    have := N_le z
    linarith
  have hmε : m < ε / 39 := max_lt he hv'
  have hm2 : m ^ 2 < (ε / 39) ^ 2 := pow_lt_pow_left₀ hmε hm0 (by norm_num)
  have e0 : main L rminus one g0 n (L.rplus g0 e, v) = free L rminus g0 n 0 (put L g0 0 z) := by
    have e1 : put L g0 0 z = (L.rplus g0 e, v) := by
      refine Prod.ext ?_ ?_
      · have a1 : des L g0 0 = g0 := by
          unfold des
          rw [Nat.cast_zero, zero_div, zero_smul, h.rplus_zero]
        have a2 : ez z = e := by
          rw [ez_eq]
          funext j
          fin_cases j <;> rfl
        simp only [put, a1, a2]
      · funext j
        fin_cases j
        · simp [put, z, hw, Matrix.vecHead, Matrix.vecTail]
        · simp [put, hv]
        · simp [put, z, hw, Matrix.vecHead, Matrix.vecTail]
    rw [e1]
    exact loop_free n 0 (setup_std L rminus one g0) _
  rw [e0] at hr
  obtain ⟨y, y1, y2⟩ := free_near hε hf g0 n 0 k z (by
    have : (ε / 39) ^ 2 = ε ^ 2 / 1521 := by ring
    have : 0 < ε ^ 2 := by positivity
    linarith) hr
  have hy : ‖y‖ ≤ 39 * (997 / 1000) ^ k * m := by
    have a1 := le_N y
    have a2 := V_lower y
    have a3 : (994 / 1000 : ℝ) ^ k ≤ ((997 / 1000) ^ k) ^ 2 := by
      rw [← pow_mul, mul_comm, pow_mul]
      exact pow_le_pow_left₀ (by norm_num) (by norm_num) k
    have a4 : (994 / 1000 : ℝ) ^ k * V z ≤ ((997 / 1000) ^ k) ^ 2 * (370 * m ^ 2) := mul_le_mul a3 hV (V_nonneg z) (by positivity)
    refine le_of_pow_le_pow_left₀ (n := 2) (by norm_num) (by positivity) ?_
    have : (39 * (997 / 1000) ^ k * m) ^ 2 = 1521 * (((997 / 1000) ^ k) ^ 2 * m ^ 2) := by ring
    rw [this]
    have : 0 ≤ ((997 / 1000 : ℝ) ^ k) ^ 2 * m ^ 2 := by positivity
    linarith
  have hq : 0 ≤ (997 / 1000 : ℝ) ^ k * m := by positivity
  have hyk : ∀ j, |y j| ≤ 39 * ((997 / 1000) ^ k * m) := fun j => by
    have := (norm_le_pi_norm y j).trans hy
    rwa [mul_assoc] at this
  rw [Nat.zero_add] at y2
  rw [mul_assoc]
  generalize (997 / 1000 : ℝ) ^ k * m = c at hq hyk
  have h0 := abs_le.1 (hyk 0)
  have h1 := abs_le.1 (hyk 1)
  have h2 := abs_le.1 (hyk 2)
  have h3 := abs_le.1 (hyk 3)
  have h4 := abs_le.1 (hyk 4)
  have hc : 0 ≤ 100 * c := by positivity
  rw [y2]
  refine ⟨⟨ez y, rfl, (pi_norm_le_iff_of_nonneg hc).2 fun j => ?_⟩, (pi_norm_le_iff_of_nonneg hc).2 fun j => ?_, (pi_norm_le_iff_of_nonneg hc).2 fun j => ?_⟩
  · rw [ez_eq, Real.norm_eq_abs, abs_le]
    fin_cases j <;> simp <;> constructor <;> linarith
  · rw [Real.norm_eq_abs, abs_le]
    fin_cases j <;> simp [put] <;> (try constructor) <;> linarith
  · rw [Real.norm_eq_abs, abs_le]
    fin_cases j <;> simp <;> constructor <;> linarith

end

end Verif.PIDSe2
