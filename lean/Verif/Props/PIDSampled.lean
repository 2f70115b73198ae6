import Verif.Spec.PIDSampled
import Verif.Props.PIDSteady
import Mathlib.Topology.Order.MonotoneConvergence
import Mathlib.Topology.Order.IntermediateValue
import Mathlib.Analysis.SpecialFunctions.Sqrt
import Mathlib.LinearAlgebra.Matrix.ToLinearEquiv
import Mathlib.LinearAlgebra.Matrix.Determinant.Basic
import Mathlib.Tactic.LinearCombination
import Mathlib.Tactic.FieldSimp
import Mathlib.Tactic.Positivity

/-! # C151: the sampled loop is stable exactly for `0 < kp`, `kp h < 2 kd`, `kd h < 2` -/

namespace Verif.PID

open PIDSpec Filter

/-! ## Second-order recurrences -/

theorem recurrence_tends {a1 a2 : ℝ} (h1 : |a1| < 1 + a2) (h2 : a2 < 1) {y : ℕ → ℝ} (hy : ∀ k, y (k + 2) = -a1 * y (k + 1) - a2 * y k) :
    Tendsto y atTop (nhds 0) := by
  obtain ⟨l1, l2⟩ := abs_lt.1 h1
  set V := fun k => (1 - a2) * ((1 + a2) * (y k ^ 2 + y (k + 1) ^ 2) + 2 * a1 * y k * y (k + 1)) with hV
  have hV0 : ∀ k, 0 ≤ V k := by
    intro k
    refine mul_nonneg (by linarith) ?_
    have p1 := mul_nonneg (show 0 ≤ 1 + a2 + a1 by linarith) (sq_nonneg (y k + y (k + 1)))
    have p2 := mul_nonneg (show 0 ≤ 1 + a2 - a1 by linarith) (sq_nonneg (y k - y (k + 1)))
    nlinarith
  have hd : ∀ k, V k - V (k + 1) = (1 - a2) ^ 2 * (y (k + 2) - y k) ^ 2 := by
    intro k
    simp only [hV]
    rw [show k + 1 + 1 = k + 2 from rfl, hy k]
    ring
  have hanti : Antitone V := antitone_nat_of_succ_le fun k => by
    have := hd k
    nlinarith [mul_nonneg (sq_nonneg (1 - a2)) (sq_nonneg (y (k + 2) - y k))]
  have hlim := tendsto_atTop_ciInf hanti ⟨0, by rintro _ ⟨k, rfl⟩; exact hV0 k⟩
  have hdz : Tendsto (fun k => V k - V (k + 1)) atTop (nhds 0) := by
    have := hlim.sub (hlim.comp (tendsto_add_atTop_nat 1))
    simpa using this
  have hsq : Tendsto (fun k => (y (k + 2) - y k) ^ 2) atTop (nhds 0) := by
    have hne : (1 - a2) ^ 2 ≠ 0 := pow_ne_zero 2 (by linarith)
    have := hdz.const_mul ((1 - a2) ^ 2)⁻¹
    rw [mul_zero] at this
    refine this.congr fun k => ?_
    rw [hd k, inv_mul_cancel_left₀ hne]
  have hD : Tendsto (fun k => y (k + 2) - y k) atTop (nhds 0) := by
    rw [tendsto_zero_iff_abs_tendsto_zero]
    have := (Real.continuous_sqrt.tendsto 0).comp hsq
    rw [Real.sqrt_zero] at this
    exact this.congr fun k => Real.sqrt_sq_eq_abs _
  have hD1 := hD.comp (tendsto_add_atTop_nat 1)
  have hs : 0 < (1 + a2) ^ 2 - a1 ^ 2 := by nlinarith
  have hfin := ((hD.const_mul (a1 ^ 2 - (1 + a2))).add ((hD1.const_mul a1))).const_mul ((1 + a2) ^ 2 - a1 ^ 2)⁻¹
  simp only [mul_zero, add_zero] at hfin
  refine hfin.congr fun k => ?_
  have e1 := hy k
  have e2 := hy (k + 1)
  rw [inv_mul_eq_iff_eq_mul₀ hs.ne']
  show (a1 ^ 2 - (1 + a2)) * (y (k + 2) - y k) + a1 * (y (k + 1 + 2) - y (k + 1)) = _
  rw [e2, show k + 1 + 1 = k + 2 from rfl, e1]
  ring

/-! ## The errors of the loop -/

/-- From error `(e, q)` to the error at the next call. -/
noncomputable def errMat (kp kd h : ℝ) : Matrix (Fin 2) (Fin 2) ℝ := !![1 - kp * h ^ 2 / 2, h - kd * h ^ 2 / 2; -(kp * h), 1 - kd * h]

theorem err_tends {kp kd h : ℝ} (hh : 0 < h) (h0 : 0 < kp) (h1 : kp * h < 2 * kd) (h2 : kd * h < 2) {e q : ℕ → ℝ}
    (he : ∀ j, e (j + 1) = (1 - kp * h ^ 2 / 2) * e j + (h - kd * h ^ 2 / 2) * q j) (hq : ∀ j, q (j + 1) = -(kp * h) * e j + (1 - kd * h) * q j) :
    Tendsto e atTop (nhds 0) ∧ Tendsto q atTop (nhds 0) := by
  have ha : |kp * h ^ 2 / 2 + kd * h - 2| < 1 + (1 - kd * h + kp * h ^ 2 / 2) := by
    rw [abs_lt]
    constructor <;> nlinarith [mul_pos h0 (pow_pos hh 2)]
  have hb : 1 - kd * h + kp * h ^ 2 / 2 < 1 := by nlinarith
  constructor
  · refine recurrence_tends ha hb fun k => ?_
    rw [he (k + 1), hq k, he k]; ring
  · refine recurrence_tends ha hb fun k => ?_
    rw [hq (k + 1), he k, hq k]; ring

variable {n : ℕ}

theorem run_calls_gains (env : Env ℝ (Vec n ℝ) ℝ n) (s : State ℝ (Vec n ℝ) ℝ n) (c : ℕ → Sample ℝ (Vec n ℝ) ℝ n) (j : ℕ) :
    (run env s (calls c j)).kp = s.kp ∧ (run env s (calls c j)).kd = s.kd ∧ (run env s (calls c j)).ki = s.ki := by
  induction j with
  | zero => exact ⟨rfl, rfl, rfl⟩
  | succ j ih => rw [run_calls_succ]; exact ih

/-- The output of call `j`. -/
noncomputable def output (env : Env ℝ (Vec n ℝ) ℝ n) (s : State ℝ (Vec n ℝ) ℝ n) (c : ℕ → Sample ℝ (Vec n ℝ) ℝ n) (j : ℕ) : Vec n ℝ :=
  (call env (run env s (calls c j)) (c j).t (c j).x (c j).v).2

theorem output_eq (env : Env ℝ (Vec n ℝ) ℝ n) (hr : ∀ x y k, env.rminus x y k = x k - y k) (s : State ℝ (Vec n ℝ) ℝ n) (c : ℕ → Sample ℝ (Vec n ℝ) ℝ n)
    (j : ℕ) (k : Fin n) (hi : s.ki k = 0) : output env s c j k = (s.xdes (c j).t).2.2 k + s.kp k * ((s.xdes (c j).t).1 k - (c j).x k)
      + s.kd k * ((s.xdes (c j).t).2.1 k - (c j).v k) := by
  obtain ⟨g1, g2, g3⟩ := run_calls_gains env s c j
  have g4 := (run_calls_const env s c j).2
  simp only [output, call, g1, g2, g3, g4, hr, hi, zero_mul, add_zero]

/-- **C151** Stable gains: every sampled loop tracks its reference. -/
theorem pid_sampled_tracks (env : Env ℝ (Vec n ℝ) ℝ n) (hr : ∀ x y k, env.rminus x y k = x k - y k) (s : State ℝ (Vec n ℝ) ℝ n) {h : ℝ} (hh : 0 < h)
    (k : Fin n) (hi : s.ki k = 0) (h0 : 0 < s.kp k) (h1 : s.kp k * h < 2 * s.kd k) (h2 : s.kd k * h < 2) (c : ℕ → Sample ℝ (Vec n ℝ) ℝ n)
    (hp : Piecewise h c s.xdes) (hl : Held h c (output env s c)) : Vanishes c s.xdes k := by
  refine err_tends hh h0 h1 h2 (fun j => ?_) (fun j => ?_)
  · rw [(hp j k).1, (hl j k).1, output_eq env hr s c j k hi]; ring
  · rw [(hp j k).2, (hl j k).2, output_eq env hr s c j k hi]; ring

/-! ## Other gains -/

theorem errMat_det (kp kd h lam : ℝ) : (errMat kp kd h - lam • 1).det = lam ^ 2 + (kp * h ^ 2 / 2 + kd * h - 2) * lam + (1 - kd * h + kp * h ^ 2 / 2) := by
  rw [Matrix.det_fin_two]
  simp [errMat]
  ring

/-- A real root outside the open unit disc gives a motion that does not decay. -/
theorem err_root {kp kd h lam : ℝ} (hl : 1 ≤ |lam|) (hroot : lam ^ 2 + (kp * h ^ 2 / 2 + kd * h - 2) * lam + (1 - kd * h + kp * h ^ 2 / 2) = 0) :
    ∃ z : ℕ → Fin 2 → ℝ, (∀ j, z (j + 1) = (errMat kp kd h).mulVec (z j)) ∧ ¬(Tendsto (fun j => z j 0) atTop (nhds 0) ∧ Tendsto (fun j => z j 1) atTop (nhds 0)) := by
  obtain ⟨w, hw, hw0⟩ := Matrix.exists_mulVec_eq_zero_iff.2 ((errMat_det kp kd h lam).trans hroot)
  have hA : (errMat kp kd h).mulVec w = lam • w := by
    rw [Matrix.sub_mulVec, Matrix.smul_mulVec, Matrix.one_mulVec] at hw0
    exact sub_eq_zero.1 hw0
  refine ⟨fun j => lam ^ j • w, fun j => ?_, fun ⟨t0, t1⟩ => hw ?_⟩
  · show lam ^ (j + 1) • w = _
    rw [Matrix.mulVec_smul, hA, smul_smul, pow_succ]
  · have key : ∀ i, Tendsto (fun j => (lam ^ j • w) i) atTop (nhds 0) → w i = 0 := by
      intro i ht
      have h3 := ht.abs
      rw [abs_zero] at h3
      have h4 : |w i| ≤ 0 := ge_of_tendsto' h3 fun j => by
        rw [Pi.smul_apply, smul_eq_mul, abs_mul, abs_pow]
        exact le_mul_of_one_le_left (abs_nonneg _) (one_le_pow₀ hl)
      exact abs_eq_zero.1 (le_antisymm h4 (abs_nonneg _))
    funext i
    fin_cases i
    · exact key 0 t0
    · exact key 1 t1

/-- A determinant of at least one likewise. -/
theorem err_volume {A : Matrix (Fin 2) (Fin 2) ℝ} (hA : 1 ≤ |A.det|) :
    ∃ z : ℕ → Fin 2 → ℝ, (∀ j, z (j + 1) = A.mulVec (z j)) ∧ ¬(Tendsto (fun j => z j 0) atTop (nhds 0) ∧ Tendsto (fun j => z j 1) atTop (nhds 0)) := by
  by_contra hc
  push Not at hc
  have h := fun i : Fin 2 => hc (fun j => (A ^ j).mulVec (Pi.single i 1)) fun j => by rw [pow_succ', Matrix.mulVec_mulVec]
  have e : ∀ (i i' : Fin 2) (j : ℕ), (A ^ j).mulVec (Pi.single i 1) i' = (A ^ j) i' i := fun i i' j => by simp
  simp only [e] at h
  have hdet : Tendsto (fun j => (A ^ j) 0 0 * (A ^ j) 1 1 - (A ^ j) 0 1 * (A ^ j) 1 0) atTop (nhds 0) := by
    have := ((h 0).1.mul (h 1).2).sub ((h 1).1.mul (h 0).2)
    simpa using this
  have h3 := hdet.abs
  rw [abs_zero] at h3
  have h4 : (1 : ℝ) ≤ 0 := ge_of_tendsto' h3 fun j => by
    rw [← Matrix.det_fin_two, Matrix.det_pow, abs_pow]
    exact one_le_pow₀ hA
  linarith

theorem err_unstable {kp kd h : ℝ} (hh : 0 < h) (hc : ¬(0 < kp ∧ kp * h < 2 * kd ∧ kd * h < 2)) :
    ∃ z : ℕ → Fin 2 → ℝ, (∀ j, z (j + 1) = (errMat kp kd h).mulVec (z j)) ∧ ¬(Tendsto (fun j => z j 0) atTop (nhds 0) ∧ Tendsto (fun j => z j 1) atTop (nhds 0)) := by
  set p := fun lam : ℝ => lam ^ 2 + (kp * h ^ 2 / 2 + kd * h - 2) * lam + (1 - kd * h + kp * h ^ 2 / 2) with hp
  have hcont : Continuous p := by fun_prop
  by_cases h0 : 0 < kp
  swap
  · -- a root of at least one
    push Not at h0
    have p1 : p 1 ≤ 0 := by
      have : p 1 = kp * h ^ 2 := by simp only [hp]; ring
      rw [this]; exact mul_nonpos_of_nonpos_of_nonneg h0 (sq_nonneg h)
    set B := 1 + |kp * h ^ 2 / 2 + kd * h - 2| + |1 - kd * h + kp * h ^ 2 / 2| with hB
    have hB1 : 1 ≤ B := by rw [hB]; linarith [abs_nonneg (kp * h ^ 2 / 2 + kd * h - 2), abs_nonneg (1 - kd * h + kp * h ^ 2 / 2)]
    have p2 : 0 ≤ p B := by
      have q1 := neg_abs_le (kp * h ^ 2 / 2 + kd * h - 2)
      have q2 := neg_abs_le (1 - kd * h + kp * h ^ 2 / 2)
      have q3 := abs_nonneg (1 - kd * h + kp * h ^ 2 / 2)
      have q4 := mul_le_mul_of_nonneg_right q1 (by linarith : 0 ≤ B)
      have q5 := mul_nonneg q3 (by linarith : 0 ≤ B - 1)
      have e : B ^ 2 = B + |kp * h ^ 2 / 2 + kd * h - 2| * B + |1 - kd * h + kp * h ^ 2 / 2| * B := by rw [sq]; nth_rewrite 1 [hB]; ring
      show 0 ≤ B ^ 2 + (kp * h ^ 2 / 2 + kd * h - 2) * B + (1 - kd * h + kp * h ^ 2 / 2)
      rw [e]; nlinarith
    obtain ⟨lam, hl, hl0⟩ := intermediate_value_Icc hB1 hcont.continuousOn ⟨p1, p2⟩
    exact err_root (by rw [abs_of_nonneg (by linarith [hl.1])]; exact hl.1) hl0
  by_cases h2 : kd * h < 2
  swap
  · -- a root of at most minus one
    push Not at h2
    have p1 : p (-1) ≤ 0 := by
      have : p (-1) = 4 - 2 * (kd * h) := by simp only [hp]; ring
      rw [this]; linarith
    set B := 1 + |kp * h ^ 2 / 2 + kd * h - 2| + |1 - kd * h + kp * h ^ 2 / 2| with hB
    have hB1 : 1 ≤ B := by rw [hB]; linarith [abs_nonneg (kp * h ^ 2 / 2 + kd * h - 2), abs_nonneg (1 - kd * h + kp * h ^ 2 / 2)]
    have p2 : 0 ≤ p (-B) := by
      have q1 := le_abs_self (kp * h ^ 2 / 2 + kd * h - 2)
      have q2 := neg_abs_le (1 - kd * h + kp * h ^ 2 / 2)
      have q3 := abs_nonneg (1 - kd * h + kp * h ^ 2 / 2)
      have q4 := mul_le_mul_of_nonneg_right q1 (by linarith : 0 ≤ B)
      have q5 := mul_nonneg q3 (by linarith : 0 ≤ B - 1)
      have e : B ^ 2 = B + |kp * h ^ 2 / 2 + kd * h - 2| * B + |1 - kd * h + kp * h ^ 2 / 2| * B := by rw [sq]; nth_rewrite 1 [hB]; ring
      show 0 ≤ (-B) ^ 2 + (kp * h ^ 2 / 2 + kd * h - 2) * (-B) + (1 - kd * h + kp * h ^ 2 / 2)
      rw [neg_sq, e]; nlinarith
    obtain ⟨lam, hl, hl0⟩ := intermediate_value_Icc' (show -B ≤ -1 by linarith) hcont.continuousOn ⟨p1, p2⟩
    exact err_root (by rw [abs_of_nonpos (by linarith [hl.2])]; linarith [hl.2]) hl0
  · -- the determinant
    have h1 : 2 * kd ≤ kp * h := by
      by_contra h3
      push Not at h3
      exact hc ⟨h0, h3, h2⟩
    refine err_volume ?_
    have e : (errMat kp kd h).det = 1 - kd * h + kp * h ^ 2 / 2 := by rw [Matrix.det_fin_two]; simp [errMat]; ring
    rw [e]
    have : 1 ≤ 1 - kd * h + kp * h ^ 2 / 2 := by nlinarith
    exact this.trans (le_abs_self _)

/-- **C151** All other gains: some sampled loop with the constant reference zero does not come to rest at it. -/
theorem pid_sampled_unstable (env : Env ℝ (Vec n ℝ) ℝ n) (hr : ∀ x y k, env.rminus x y k = x k - y k) (s : State ℝ (Vec n ℝ) ℝ n) {h : ℝ} (hh : 0 < h)
    (hi : s.ki = 0) (hx : s.xdes = fun _ => (0, 0, 0)) (k : Fin n) (hc : ¬(0 < s.kp k ∧ s.kp k * h < 2 * s.kd k ∧ s.kd k * h < 2)) :
    ∃ c : ℕ → Sample ℝ (Vec n ℝ) ℝ n, Clocked h c ∧ Piecewise h c s.xdes ∧ Held h c (output env s c) ∧ ¬Vanishes c s.xdes k := by
  obtain ⟨z, hz, hn⟩ := err_unstable hh hc
  refine ⟨fun j => ⟨j * h, Pi.single k (-(z j 0)), Pi.single k (-(z j 1))⟩, fun j => by push_cast; ring, fun j i => by simp [hx], fun j i => ?_, fun hv => hn ?_⟩
  · rw [output_eq env hr s _ j i (by rw [hi]; rfl), hx]
    have e0 : z (j + 1) 0 = (1 - s.kp k * h ^ 2 / 2) * z j 0 + (h - s.kd k * h ^ 2 / 2) * z j 1 := by
      rw [hz j]; simp [errMat, Matrix.mulVec, dotProduct, Fin.sum_univ_two]
    have e1 : z (j + 1) 1 = -(s.kp k * h) * z j 0 + (1 - s.kd k * h) * z j 1 := by
      rw [hz j]; simp [errMat, Matrix.mulVec, dotProduct, Fin.sum_univ_two]
    by_cases hik : i = k
    · subst hik
      simp only [Pi.single_eq_same, e0, e1, Pi.zero_apply]
      constructor <;> ring
    · simp [Pi.single_eq_of_ne hik]
  · simpa [Vanishes, hx] using hv

/-- The default gains `kp = kd = 1`: stable exactly if the controller is called more often than every 2 seconds. -/
theorem default_gains_sampled (env : Env ℝ (Vec 1 ℝ) ℝ 1) (hr : ∀ x y k, env.rminus x y k = x k - y k) (h0 : env.identity = 0) (w : Option ℝ) {h : ℝ} (hh : 0 < h) :
    (∀ c, Piecewise h c (init env w).xdes → Held h c (output env (init env w) c) → Vanishes c (init env w).xdes 0) ↔ h < 2 := by
  constructor
  · intro hall
    by_contra hc
    obtain ⟨c, -, c1, c2, c3⟩ := pid_sampled_unstable env hr (init env w) hh rfl (by funext t; simp only [init, h0]; rfl) 0
      (fun hg => hc (by have := hg.2.2; simpa [init] using this))
    exact c3 (hall c c1 c2)
  · intro hlt c c1 c2
    refine pid_sampled_tracks env hr (init env w) hh 0 rfl one_pos ?_ ?_ c c1 c2
    · show 1 * h < 2 * 1; linarith
    · show 1 * h < 2; linarith

end Verif.PID
