import Mathlib.Data.Real.Basic
import Mathlib.LinearAlgebra.Matrix.Notation
import Mathlib.Tactic.Ring
import Mathlib.Tactic.Linarith
import Mathlib.Tactic.Positivity
import Mathlib.Tactic.NormNum

/-! # A quadratic form that decreases along the linearised closed loop of examples/pid_se2.cpp (C122) -/

namespace Verif.PIDSe2

/-- The quadratic form. -/
def V (z : Fin 5 → ℝ) : ℝ :=
  6 * z 0 ^ 2 + 7 * z 1 ^ 2 + 30 * z 2 ^ 2 + 4 * z 3 ^ 2 + 22 * z 4 ^ 2 - 6 * z 0 * z 1 - 22 * z 0 * z 2 + 6 * z 0 * z 3 - 14 * z 0 * z 4 + 22 * z 1 * z 2 +
    4 * z 1 * z 4 - 10 * z 2 * z 3 + 34 * z 2 * z 4 - 14 * z 3 * z 4

/-- The sum of squares. -/
def N (z : Fin 5 → ℝ) : ℝ := z 0 ^ 2 + z 1 ^ 2 + z 2 ^ 2 + z 3 ^ 2 + z 4 ^ 2

theorem N_nonneg (z : Fin 5 → ℝ) : 0 ≤ N z := by
  unfold N
  positivity

theorem V_lower (z : Fin 5 → ℝ) : 1 / 4 * N z ≤ V z := by
  have e : V z - 1 / 4 * N z = (111/20) * ((1) * z 0 + (-27/50) * z 1 + (-99/50) * z 2 + (27/50) * z 3 + (-63/50) * z 4) ^ 2 + (493/100) * ((1) * z 1 + (103/100) * z 2 + (33/100) * z 3 + (-9/25) * z 4) ^ 2 + (257/100) * ((1) * z 2 + (-7/25) * z 3 + (193/100) * z 4) ^ 2 + (119/100) * ((1) * z 3 + (-26/25) * z 4) ^ 2 + (121/100) * ((1) * z 4) ^ 2 + (3/1000) * (z 0 - z 1) ^ 2 + (11/1000) * (z 0 - z 2) ^ 2 + (3/1000) * (z 0 + z 3) ^ 2 + (7/1000) * (z 0 - z 4) ^ 2 + (299/25000) * (z 1 - z 2) ^ 2 + (213/25000) * (z 1 - z 3) ^ 2 + (71/50000) * (z 1 - z 4) ^ 2 + (22047/1000000) * (z 2 - z 3) ^ 2 + (5451/250000) * (z 2 + z 4) ^ 2 + (2917/250000) * (z 3 - z 4) ^ 2 + (22/125) * z 0 ^ 2 + (2209/12500) * z 1 ^ 2 + (31183/250000) * z 2 ^ 2 + (7901/50000) * z 3 ^ 2 + (187903/1000000) * z 4 ^ 2 := by
    unfold V N
    ring
  have : 0 ≤ V z - 1 / 4 * N z := by
    rw [e]
    positivity
  linarith

theorem V_nonneg (z : Fin 5 → ℝ) : 0 ≤ V z := by
  have := V_lower z
  have := N_nonneg z
  linarith

theorem V_upper (z : Fin 5 → ℝ) : V z ≤ 74 * N z := by
  unfold V N
  nlinarith [sq_nonneg (z 0 + z 1), sq_nonneg (z 0 + z 2), sq_nonneg (z 0 - z 3), sq_nonneg (z 0 + z 4), sq_nonneg (z 1 - z 2), sq_nonneg (z 1 - z 4), sq_nonneg (z 2 + z 3),
    sq_nonneg (z 2 - z 4), sq_nonneg (z 3 + z 4), sq_nonneg (z 0), sq_nonneg (z 1), sq_nonneg (z 3), sq_nonneg (z 4), sq_nonneg (z 2)]

theorem V_add (a b : Fin 5 → ℝ) : V (a + b) ≤ 1001 / 1000 * V a + 1001 * V b := by
  have h := V_nonneg fun k => a k / 1000 - b k
  have e : V (a + b) = 1001 / 1000 * V a + 1001 * V b - 1000 * V fun k => a k / 1000 - b k := by
    simp only [V, Pi.add_apply]
    ring
  linarith

/-- What the input adds to the pose, minus what the motion of the reference takes: the linear part. -/
noncomputable def yv (z : Fin 5 → ℝ) : Fin 3 → ℝ :=
  ![z 3 / 20 + (-z 0 - z 3) / 800 + z 1 / 50, -(z 0 / 50 - z 2 / 20), z 4 / 20 + (-z 2 - z 4 - 3 / 10 * z 1) / 800]

/-- The linearised turn, for the coefficients `c1` and `c2` of the derivative of the exponential map. -/
noncomputable def turn (c1 c2 : ℝ) (z : Fin 5 → ℝ) : Fin 5 → ℝ :=
  ![z 0 + yv z 0 - c1 * (-(yv z 1 / 50)) + c2 * (-((yv z 0 / 50 - yv z 2 / 20) / 50)),
    z 1 + yv z 1 - c1 * (yv z 0 / 50 - yv z 2 / 20) + c2 * (-(yv z 1 / 50) / 50),
    z 2 + yv z 2, z 3 + (-z 0 - z 3) / 20, z 4 + (-z 2 - z 4 - 3 / 10 * z 1) / 20]

theorem V_turn0 (z : Fin 5 → ℝ) : V (turn (1 / 2) (1 / 6) z) ≤ 99 / 100 * V z := by
  have e : 99 / 100 * V z - V (turn (1 / 2) (1 / 6) z) = (61/500) * ((1) * z 0 + (-471/1000) * z 1 + (-1067/1000) * z 2 + (41/200) * z 3 + (-381/1000) * z 4) ^ 2 + (2/25) * ((1) * z 1 + (79/100) * z 2 + (-21/200) * z 3 + (-61/500) * z 4) ^ 2 + (33/250) * ((1) * z 2 + (37/200) * z 3 + (1153/1000) * z 4) ^ 2 + (9/200) * ((1) * z 3 + (-137/125) * z 4) ^ 2 + (11/500) * ((1) * z 4) ^ 2 + (3543510031/96000000000000) * (z 0 + z 1) ^ 2 + (3141031751/28800000000000) * (z 0 + z 2) ^ 2 + (588135591/8000000000000) * (z 0 - z 3) ^ 2 + (862491773/9600000000000) * (z 0 + z 4) ^ 2 + (10421926631/38400000000000) * (z 1 - z 2) ^ 2 + (1896955029/32000000000000) * (z 1 + z 3) ^ 2 + (548012887/38400000000000) * (z 1 - z 4) ^ 2 + (511942591/3200000000000) * (z 2 + z 3) ^ 2 + (499846267/3840000000000) * (z 2 + z 4) ^ 2 + (1219516207/3200000000000) * (z 3 + z 4) ^ 2 + (605611610927/288000000000000) * z 0 ^ 2 + (682313090959/384000000000000) * z 1 ^ 2 + (203462502707/115200000000000) * z 2 ^ 2 + (49317621799/32000000000000) * z 3 ^ 2 + (84240098657/38400000000000) * z 4 ^ 2 := by
    simp only [V, turn, yv, Matrix.cons_val_zero, Matrix.cons_val_one, Matrix.cons_val]
    ring
  have : 0 ≤ 99 / 100 * V z - V (turn (1 / 2) (1 / 6) z) := by
    rw [e]
    positivity
  linarith

theorem sq_bound {c p : ℝ} (h : |c| ≤ 1 / 2500) : (c * p) ^ 2 ≤ 1 / 6250000 * p ^ 2 := by
  have h2 : c ^ 2 ≤ 1 / 6250000 := by
    have := abs_le.1 h
    nlinarith
  rw [mul_pow]
  exact mul_le_mul_of_nonneg_right h2 (sq_nonneg p)

theorem V_turn {c1 c2 : ℝ} (h1 : |c1 - 1 / 2| ≤ 1 / 2500) (h2 : |c2 - 1 / 6| ≤ 1 / 2500) (z : Fin 5 → ℝ) : V (turn c1 c2 z) ≤ 124 / 125 * V z := by
  let p : ℝ := -(yv z 1 / 50)
  let q : ℝ := yv z 0 / 50 - yv z 2 / 20
  let d : Fin 5 → ℝ := ![-(c1 - 1 / 2) * p + (c2 - 1 / 6) * (-(q / 50)), -(c1 - 1 / 2) * q + (c2 - 1 / 6) * (p / 50), 0, 0, 0]
  have e : turn c1 c2 z = turn (1 / 2) (1 / 6) z + d := by
    funext k
    fin_cases k <;> simp [turn, d, p, q] <;> ring
  have hp : p ^ 2 ≤ 1 / 1000 * N z := by
    simp only [p, yv, N, Matrix.cons_val_one, Matrix.cons_val_zero]
    nlinarith [sq_nonneg (z 0 + z 2), sq_nonneg (z 0), sq_nonneg (z 1), sq_nonneg (z 2), sq_nonneg (z 3), sq_nonneg (z 4)]
  have hq : q ^ 2 ≤ 1 / 1000 * N z := by
    simp only [q, yv, N, Matrix.cons_val_one, Matrix.cons_val_zero, Matrix.cons_val]
    have : ∀ a b c d e : ℝ, (a + b + c + d + e) ^ 2 ≤ 5 * (a ^ 2 + b ^ 2 + c ^ 2 + d ^ 2 + e ^ 2) := fun a b c d e => by
      nlinarith [sq_nonneg (a - b), sq_nonneg (a - c), sq_nonneg (a - d), sq_nonneg (a - e), sq_nonneg (b - c), sq_nonneg (b - d), sq_nonneg (b - e), sq_nonneg (c - d),
        sq_nonneg (c - e), sq_nonneg (d - e)]
    have := this (-(1 / 40000) * z 0) ((1 / 2500 + 3 / 160000) * z 1) (1 / 16000 * z 2) (39 / 40000 * z 3) (-(39 / 16000) * z 4)
    have e : (z 3 / 20 + (-z 0 - z 3) / 800 + z 1 / 50) / 50 - (z 4 / 20 + (-z 2 - z 4 - 3 / 10 * z 1) / 800) / 20 =
        -(1 / 40000) * z 0 + (1 / 2500 + 3 / 160000) * z 1 + 1 / 16000 * z 2 + 39 / 40000 * z 3 + -(39 / 16000) * z 4 := by ring
    rw [e]
    refine this.trans ?_
    nlinarith [sq_nonneg (z 0), sq_nonneg (z 1), sq_nonneg (z 2), sq_nonneg (z 3), sq_nonneg (z 4)]
  have hd : N d ≤ 4 / 6250000 * (p ^ 2 + q ^ 2) := by
    have a1 := sq_bound (p := p) h1
    have a2 := sq_bound (p := q) h1
    have a3 := sq_bound (p := -(q / 50)) h2
    have a4 := sq_bound (p := p / 50) h2
    have e : N d = (-(c1 - 1 / 2) * p + (c2 - 1 / 6) * (-(q / 50))) ^ 2 + (-(c1 - 1 / 2) * q + (c2 - 1 / 6) * (p / 50)) ^ 2 := by
      simp [N, d]
    have t : ∀ a b : ℝ, (-a + b) ^ 2 ≤ 2 * a ^ 2 + 2 * b ^ 2 := fun a b => by nlinarith [sq_nonneg (a + b)]
    have b1 := t ((c1 - 1 / 2) * p) ((c2 - 1 / 6) * (-(q / 50)))
    have b2 := t ((c1 - 1 / 2) * q) ((c2 - 1 / 6) * (p / 50))
    rw [e]
    rw [← neg_mul] at b1 b2
    nlinarith [sq_nonneg p, sq_nonneg q]
  have v0 := V_add (turn (1 / 2) (1 / 6) z) d
  have v1 := V_turn0 z
  have v2 := V_upper d
  have v3 := V_lower z
  have n0 := N_nonneg z
  rw [← e] at v0
  have n1 : N d ≤ 4 / 6250000 * (2 / 1000 * N z) := hd.trans (by nlinarith)
  linarith

end Verif.PIDSe2
