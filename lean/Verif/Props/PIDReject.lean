import Verif.Props.PIDOffset
import Mathlib.Analysis.SpecificLimits.Basic

/-! # C156: integral gain rejects a constant disturbance in the sampled loop -/

namespace Verif.PID

open PIDSpec Filter

/-! ## Third-order recurrences -/

theorem first_order_tends {rho : ℝ} (hr : |rho| < 1) {y z : ℕ → ℝ} (hy : ∀ j, y (j + 1) = rho * y j + z j) (hz : Tendsto z atTop (nhds 0)) :
    Tendsto y atTop (nhds 0) := by
  rw [Metric.tendsto_atTop] at hz ⊢
  intro eps heps
  obtain ⟨N, hN⟩ := hz ((1 - |rho|) * (eps / 2)) (mul_pos (by linarith) (by linarith))
  have hb : ∀ k, |y (N + k)| ≤ |rho| ^ k * |y N| + eps / 2 := by
    intro k
    induction k with
    | zero => rw [pow_zero, one_mul]; show |y N| ≤ _; linarith
    | succ k ih =>
      have h1 := hN (N + k) (Nat.le_add_right _ _)
      rw [Real.dist_eq, sub_zero] at h1
      have h2 : |y (N + (k + 1))| ≤ |rho| * |y (N + k)| + |z (N + k)| := by
        rw [← Nat.add_assoc, hy, ← abs_mul]
        exact abs_add_le _ _
      have h3 := mul_le_mul_of_nonneg_left ih (abs_nonneg rho)
      rw [pow_succ]
      nlinarith
  have hp := ((tendsto_pow_atTop_nhds_zero_of_lt_one (abs_nonneg rho) hr).mul_const |y N|)
  rw [zero_mul, Metric.tendsto_atTop] at hp
  obtain ⟨M, hM⟩ := hp (eps / 2) (by linarith)
  refine ⟨N + M, fun j hj => ?_⟩
  obtain ⟨k, rfl⟩ := Nat.exists_eq_add_of_le (le_trans (Nat.le_add_right N M) hj)
  have h1 := hM k (by omega)
  rw [Real.dist_eq, sub_zero] at h1
  rw [Real.dist_eq, sub_zero]
  linarith [hb k, le_abs_self (|rho| ^ k * |y N|)]

/-- Schur–Cohn conditions for a cubic. -/
theorem cubic_tends {a b c : ℝ} (h1 : 0 < 1 + a + b + c) (h2 : -1 + a - b + c < 0) (h3 : |c| < 1) (h4 : 0 < 1 - b + a * c - c ^ 2) {y : ℕ → ℝ}
    (hy : ∀ j, y (j + 3) = -a * y (j + 2) - b * y (j + 1) - c * y j) : Tendsto y atTop (nhds 0) := by
  have hcont : Continuous fun z : ℝ => z ^ 3 + a * z ^ 2 + b * z + c := by fun_prop
  obtain ⟨rho, ⟨l1, l2⟩, hroot⟩ := intermediate_value_Ioo (show (-1 : ℝ) ≤ 1 by norm_num) hcont.continuousOn
    (show (0 : ℝ) ∈ Set.Ioo _ _ from ⟨by nlinarith, by nlinarith⟩)
  have hroot' : rho ^ 3 + a * rho ^ 2 + b * rho + c = 0 := hroot
  set b1 := a + rho with hb1
  set c1 := b + rho * b1 with hc1
  have hc : c = -(rho * c1) := by rw [hc1, hb1]; linarith
  have ha : a = b1 - rho := by rw [hb1]; ring
  have hb : b = c1 - rho * b1 := by rw [hc1]; ring
  have hrho : |rho| < 1 := abs_lt.2 ⟨l1, l2⟩
  have p1 : 0 < 1 + b1 + c1 := by
    have e : 1 + a + b + c = (1 - rho) * (1 + b1 + c1) := by rw [hc, ha, hb]; ring
    rw [e] at h1
    exact (pos_iff_pos_of_mul_pos h1).1 (by linarith)
  have p2 : 0 < 1 - b1 + c1 := by
    have e : -(-1 + a - b + c) = (1 + rho) * (1 - b1 + c1) := by rw [hc, ha, hb]; ring
    have h2' : 0 < (1 + rho) * (1 - b1 + c1) := by rw [← e]; linarith
    exact (pos_iff_pos_of_mul_pos h2').1 (by linarith)
  have habs : |b1| < 1 + c1 := abs_lt.2 ⟨by linarith, by linarith⟩
  have hq : 0 < 1 + rho * b1 + rho ^ 2 * c1 := by
    have q1 : -(|rho| * (1 + c1)) ≤ rho * b1 := by
      have := mul_le_mul_of_nonneg_left habs.le (abs_nonneg rho)
      have h5 := neg_abs_le (rho * b1)
      rw [abs_mul] at h5
      linarith
    have q2 : |rho| * c1 < 1 := by
      have : |rho| * c1 ≤ |c| := by
        rw [hc, abs_neg, abs_mul]
        exact mul_le_mul_of_nonneg_left (le_abs_self c1) (abs_nonneg rho)
      linarith
    have q3 : 0 < (1 - |rho|) * (1 - |rho| * c1) := mul_pos (by linarith) (by linarith)
    rw [← sq_abs rho]
    nlinarith
  have hlt : c1 < 1 := by
    have e : 1 - b + a * c - c ^ 2 = (1 + rho * b1 + rho ^ 2 * c1) * (1 - c1) := by rw [hc, ha, hb]; ring
    rw [e] at h4
    linarith [(pos_iff_pos_of_mul_pos h4).1 hq]
  refine first_order_tends hrho (z := fun j => y (j + 1) - rho * y j) (fun j => by ring) (recurrence_tends habs hlt fun j => ?_)
  show y (j + 3) - rho * y (j + 2) = -b1 * (y (j + 2) - rho * y (j + 1)) - c1 * (y (j + 1) - rho * y j)
  rw [hy j, ha, hb, hc]
  ring

/-! ## The errors of the loop -/

theorem err3_tends {kp kd ki h : ℝ} (hh : 0 < h) (h0 : 0 < kp) (hi : 0 < ki) (h1 : kp * h < 2 * kd) (h2 : kd * h < 2)
    (h3 : ki * h * (2 - (kd * h - kp * h ^ 2 / 2)) < 2 * (kd * h - kp * h ^ 2 / 2) * kp) {e q i : ℕ → ℝ}
    (he : ∀ j, e (j + 1) = (1 - kp * h ^ 2 / 2) * e j + (h - kd * h ^ 2 / 2) * q j - ki * h ^ 2 / 2 * i j)
    (hq : ∀ j, q (j + 1) = -(kp * h) * e j + (1 - kd * h) * q j - ki * h * i j) (hI : ∀ j, i (j + 1) = i j + h * e (j + 1)) :
    Tendsto e atTop (nhds 0) ∧ Tendsto q atTop (nhds 0) := by
  have hkh : 0 < kp * h ^ 2 := mul_pos h0 (pow_pos hh 2)
  have hd : 0 < kd * h - kp * h ^ 2 / 2 := by nlinarith
  have A1 : 0 < 1 + (-3 + kp * h ^ 2 / 2 + kd * h + ki * h ^ 3 / 2) + (3 - 2 * (kd * h) + ki * h ^ 3 / 2) + (-1 + kd * h - kp * h ^ 2 / 2) := by
    have := mul_pos hi (pow_pos hh 3)
    linarith
  have A2 : -1 + (-3 + kp * h ^ 2 / 2 + kd * h + ki * h ^ 3 / 2) - (3 - 2 * (kd * h) + ki * h ^ 3 / 2) + (-1 + kd * h - kp * h ^ 2 / 2) < 0 := by linarith
  have A3 : |(-1 + kd * h - kp * h ^ 2 / 2)| < 1 := abs_lt.2 ⟨by linarith, by linarith⟩
  have A4 : 0 < 1 - (3 - 2 * (kd * h) + ki * h ^ 3 / 2) + (-3 + kp * h ^ 2 / 2 + kd * h + ki * h ^ 3 / 2) * (-1 + kd * h - kp * h ^ 2 / 2)
      - (-1 + kd * h - kp * h ^ 2 / 2) ^ 2 := by
    have h4 := mul_pos (sub_pos.2 h3) (pow_pos hh 2)
    have e4 : 1 - (3 - 2 * (kd * h) + ki * h ^ 3 / 2) + (-3 + kp * h ^ 2 / 2 + kd * h + ki * h ^ 3 / 2) * (-1 + kd * h - kp * h ^ 2 / 2)
      - (-1 + kd * h - kp * h ^ 2 / 2) ^ 2 = (2 * (kd * h - kp * h ^ 2 / 2) * kp - ki * h * (2 - (kd * h - kp * h ^ 2 / 2))) * h ^ 2 / 2 := by ring
    rw [e4]; linarith
  constructor
  · refine cubic_tends A1 A2 A3 A4 fun j => ?_
    rw [he (j + 2), hq (j + 1), hI (j + 1), he (j + 1), hq j, hI j, he j]; ring
  · refine cubic_tends A1 A2 A3 A4 fun j => ?_
    rw [hq (j + 2), hq (j + 1), hI (j + 1), he (j + 1), hq j, hI j, he j]; ring

variable {n : ℕ}

/-- **C156** With integral gain and no anti-windup limit every constant disturbance is rejected, from every first state and integral, and the integral tends to `-w / ki`. -/
theorem pid_sampled_rejects (env : Env ℝ (Vec n ℝ) ℝ n) (hr : ∀ x y k, env.rminus x y k = x k - y k) (ht : ∀ a b, env.tminus a b = a - b)
    (s : State ℝ (Vec n ℝ) ℝ n) (hw : s.windup = none) {h : ℝ} (hh : 0 < h) (k : Fin n) (h0 : 0 < s.kp k) (hi : 0 < s.ki k) (h1 : s.kp k * h < 2 * s.kd k)
    (h2 : s.kd k * h < 2) (h3 : s.ki k * h * (2 - (s.kd k * h - s.kp k * h ^ 2 / 2)) < 2 * (s.kd k * h - s.kp k * h ^ 2 / 2) * s.kp k)
    (c : ℕ → Sample ℝ (Vec n ℝ) ℝ n) (w : Vec n ℝ) (hc : Clocked h c) (hp : Piecewise h c s.xdes) (hl : Held h c fun j => output env s c j + w) :
    Vanishes c s.xdes k ∧ Tendsto (fun j => used env s c j k) atTop (nhds (-(w k / s.ki k))) := by
  have hne := hi.ne'
  have hl1 : ∀ j, (c (j + 1)).x k = (c j).x k + h * (c j).v k + h ^ 2 / 2 * (output env s c j k + w k) := fun j => (hl j k).1
  have hl2 : ∀ j, (c (j + 1)).v k = (c j).v k + h * (output env s c j k + w k) := fun j => (hl j k).2
  have ho : ∀ j, output env s c j k = (s.xdes (c j).t).2.2 k + s.kp k * ((s.xdes (c j).t).1 k - (c j).x k) + s.kd k * ((s.xdes (c j).t).2.1 k - (c j).v k)
      + s.ki k * used env s c j k := fun j => by
    obtain ⟨g1, g2, g3⟩ := run_calls_gains env s c j
    have g4 := (run_calls_const env s c j).2
    simp only [output, used, call, g1, g2, g3, g4, ← hr]
  have hu : ∀ j, used env s c j = (run env s (calls c (j + 1))).iErr := fun j => by rw [run_calls_succ]; rfl
  have hI : ∀ j, used env s c (j + 1) k = used env s c j k + h * ((s.xdes (c (j + 1)).t).1 k - (c (j + 1)).x k) := fun j => by
    rw [hu, hu, run_calls_iErr env s c j (by rw [hc j]; linarith), hw]
    simp only [windupClamp, hr, ht, hc j, add_sub_cancel_left]
  have key : Vanishes c s.xdes k := err3_tends hh h0 hi h1 h2 h3 (i := fun j => used env s c j k + w k / s.ki k)
    (fun j => by rw [(hp j k).1, hl1 j, ho j]; field_simp; ring)
    (fun j => by rw [(hp j k).2, hl2 j, ho j]; field_simp; ring)
    (fun j => by rw [hI j]; ring)
  exact ⟨key, pid_integral_learns env hr s hh k hne c w hp hl key⟩

/-! ## A mass pushed with unit force -/

/-- New controller with integral gain 1/2. -/
noncomputable def patient : State ℝ (Vec 1 ℝ) ℝ 1 := { init pushEnv none with ki := fun _ => 1 / 2 }

/-- Position, velocity and integral every second, from rest at zero. -/
noncomputable def returned : ℕ → ℝ × ℝ × ℝ
  | 0 => (0, 0, 0)
  | j + 1 =>
    let u := 1 - (returned j).1 - (returned j).2.1 + 1 / 2 * (returned j).2.2
    let x := (returned j).1 + (returned j).2.1 + 1 / 2 * u
    (x, (returned j).2.1 + u, (returned j).2.2 - x)

/-- The calls. -/
noncomputable def returning (j : ℕ) : Sample ℝ (Vec 1 ℝ) ℝ 1 := ⟨j, fun _ => (returned j).1, fun _ => (returned j).2.1⟩

theorem returning_used (j : ℕ) (k : Fin 1) : used pushEnv patient returning j k = (returned j).2.2 := by
  have hu : ∀ j, used pushEnv patient returning j = (run pushEnv patient (calls returning (j + 1))).iErr := fun j => by rw [run_calls_succ]; rfl
  induction j with
  | zero => rfl
  | succ j ih =>
    rw [hu, run_calls_iErr pushEnv patient returning j (by simp [returning]), ← hu]
    show used pushEnv patient returning j k + (((j + 1 : ℕ) : ℝ) - (j : ℝ)) * ((0 : ℝ) - (returned (j + 1)).1) = (returned (j + 1)).2.2
    rw [ih]
    simp only [returned]
    push_cast
    ring

/-- The mass returns to the reference zero and the integral tends to `-2`. -/
theorem returned_rejects : Tendsto (fun j => (returned j).1) atTop (nhds 0) ∧ Tendsto (fun j => (returned j).2.2) atTop (nhds (-2)) := by
  have hl : Held 1 returning fun j => output pushEnv patient returning j + fun _ => 1 := by
    intro j k
    obtain ⟨g1, g2, g3⟩ := run_calls_gains pushEnv patient returning j
    have g4 := (run_calls_const pushEnv patient returning j).2
    have ho : output pushEnv patient returning j k = 0 + 1 * (0 - (returned j).1) + 1 * (0 - (returned j).2.1) + 1 / 2 * (returned j).2.2 := by
      rw [← returning_used j k]
      simp only [output, used, call, g1, g2, g3, g4]
      rfl
    simp only [Pi.add_apply, ho]
    simp only [returning, returned]
    constructor <;> ring
  obtain ⟨h1, h2⟩ := pid_sampled_rejects pushEnv (fun _ _ _ => rfl) (fun _ _ => rfl) patient rfl one_pos 0 one_pos (show (0 : ℝ) < 1 / 2 by norm_num)
    (show (1 : ℝ) * 1 < 2 * 1 by norm_num) (show (1 : ℝ) * 1 < 2 by norm_num)
    (show (1 / 2 : ℝ) * 1 * (2 - (1 * 1 - 1 * 1 ^ 2 / 2)) < 2 * (1 * 1 - 1 * 1 ^ 2 / 2) * 1 by norm_num) returning (fun _ => 1)
    (fun j => by simp [returning])
    (fun j k => by show (0 : ℝ) = 0 + 1 * 0 + 1 ^ 2 / 2 * 0 ∧ (0 : ℝ) = 0 + 1 * 0; norm_num) hl
  constructor
  · have := h1.1.neg
    rw [neg_zero] at this
    refine this.congr fun j => ?_
    show -((0 : ℝ) - (returned j).1) = (returned j).1
    ring
  · have e : -((1 : ℝ) / (1 / 2)) = -2 := by norm_num
    have h3 : Tendsto (fun j => used pushEnv patient returning j 0) atTop (nhds (-((1 : ℝ) / (1 / 2)))) := h2
    rw [e] at h3
    exact h3.congr fun j => returning_used j 0

end Verif.PID
