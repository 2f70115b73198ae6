import Verif.Spec.PIDTrack
import Verif.Props.PID
import Mathlib.Analysis.Calculus.Deriv.MeanValue
import Mathlib.Analysis.SpecialFunctions.ExpDeriv
import Mathlib.Analysis.SpecialFunctions.Trigonometric.Deriv
import Mathlib.Tactic.Linarith
import Mathlib.Tactic.FieldSimp
import Mathlib.Tactic.Positivity

/-! # C149: a double integrator under the controller tracks its reference -/

namespace Verif.PID

open PIDSpec

/-! ## One component -/

/-- A function with `f' ≤ -l f + B` decays to `B / l`. -/
theorem decay {f f' : ℝ → ℝ} {l B : ℝ} (hl : 0 < l) (hf : ∀ t, 0 ≤ t → HasDerivAt f (f' t) t) (hd : ∀ t, 0 ≤ t → f' t ≤ -l * f t + B) {t : ℝ} (ht : 0 ≤ t) :
    f t ≤ (f 0 - B / l) * Real.exp (-(l * t)) + B / l := by
  have hu : ∀ t, 0 ≤ t → HasDerivAt (fun t => (f t - B / l) * Real.exp (l * t)) (f' t * Real.exp (l * t) + (f t - B / l) * (Real.exp (l * t) * l)) t := by
    intro t ht
    have h1 : HasDerivAt (fun t : ℝ => l * t) l t := by simpa using (hasDerivAt_id t).const_mul l
    exact ((hf t ht).sub_const (B / l)).mul h1.exp
  have ha : AntitoneOn (fun t => (f t - B / l) * Real.exp (l * t)) (Set.Ici 0) := by
    refine antitoneOn_of_deriv_nonpos (convex_Ici 0) (fun t ht => (hu t ht).continuousAt.continuousWithinAt)
      (fun t ht => ?_) (fun t ht => ?_)
    · rw [interior_Ici] at ht
      exact (hu t (le_of_lt ht)).differentiableAt.differentiableWithinAt
    · rw [interior_Ici] at ht
      rw [(hu t (le_of_lt ht)).deriv]
      have h1 := hd t (le_of_lt ht)
      have h2 : f' t + (f t - B / l) * l ≤ 0 := by
        have : (f t - B / l) * l = f t * l - B := by field_simp
        rw [this]; linarith
      have := mul_nonpos_of_nonpos_of_nonneg h2 (Real.exp_pos (l * t)).le
      linarith [show (f' t + (f t - B / l) * l) * Real.exp (l * t) = f' t * Real.exp (l * t) + (f t - B / l) * (Real.exp (l * t) * l) by ring]
  have h := ha (Set.mem_Ici.2 le_rfl) (Set.mem_Ici.2 ht) ht
  simp only [mul_zero, Real.exp_zero, mul_one] at h
  have h2 := mul_le_mul_of_nonneg_right h (Real.exp_pos (-(l * t))).le
  rw [mul_assoc, ← Real.exp_add, add_neg_cancel, Real.exp_zero, mul_one] at h2
  linarith

theorem rate_pos {kp kd : ℝ} (hp : 0 < kp) (hd : 0 < kd) : 0 < rate kp kd := by unfold rate; positivity

theorem rate_le {kp kd : ℝ} (hp : 0 < kp) (hd : 0 < kd) : rate kp kd ≤ kd / 2 ∧ 16 * rate kp kd ^ 2 ≤ kp ∧ rate kp kd * kd ^ 2 ≤ kd * kp / 2 := by
  unfold rate
  have hs : 0 < kp + kd ^ 2 := by positivity
  refine ⟨?_, ?_, ?_⟩
  · rw [div_le_div_iff₀ (by positivity) (by positivity)]
    nlinarith [pow_pos hd 3, mul_pos hp hd]
  · rw [div_pow, mul_div_assoc', div_le_iff₀ (by positivity)]
    nlinarith [mul_nonneg hp.le (sq_nonneg (kp - kd ^ 2))]
  · rw [div_mul_eq_mul_div, div_le_div_iff₀ (by positivity) (by positivity)]
    nlinarith [mul_pos hp hd, mul_pos (mul_pos hp hd) hp]

/-- The damped oscillator with a bounded disturbance. -/
theorem oscillator {kp kd W : ℝ} (hp : 0 < kp) (hd : 0 < kd) {e q w : ℝ → ℝ} (he : ∀ t, 0 ≤ t → HasDerivAt e (q t) t)
    (hq : ∀ t, 0 ≤ t → HasDerivAt q (-kp * e t - kd * q t - w t) t) (hw : ∀ t, 0 ≤ t → |w t| ≤ W) {t : ℝ} (ht : 0 ≤ t) :
    q t ^ 2 + kp * e t ^ 2 ≤ 5 / 3 * (q 0 ^ 2 + kp * e 0 ^ 2) * Real.exp (-(2 / 5 * rate kp kd * t)) + 125 / 12 * (W / rate kp kd) ^ 2 := by
  obtain ⟨c1, c2, c3⟩ := rate_le hp hd
  have c0 := rate_pos hp hd
  set c := rate kp kd with hc
  set V := fun t => q t ^ 2 / 2 + kp * e t ^ 2 / 2 + c * e t * q t with hV
  have cross : ∀ a b : ℝ, |c * a * b| ≤ (kp * a ^ 2 + b ^ 2) / 8 := by
    intro a b
    have h1 := mul_le_mul_of_nonneg_right c2 (sq_nonneg a)
    rw [abs_le]
    constructor <;> nlinarith [sq_nonneg (4 * c * a - b), sq_nonneg (4 * c * a + b)]
  have hVd : ∀ t, 0 ≤ t → HasDerivAt V (q t * (-kp * e t - kd * q t - w t) + kp * e t * q t + (c * q t * q t + c * e t * (-kp * e t - kd * q t - w t))) t := by
    intro t ht
    have h1 := ((hq t ht).pow 2).div_const 2
    have h2 := (((he t ht).pow 2).const_mul kp).div_const 2
    have h3 := ((he t ht).const_mul c).mul (hq t ht)
    have h := (h1.add h2).add h3
    have ee : q t * (-kp * e t - kd * q t - w t) + kp * e t * q t + (c * q t * q t + c * e t * (-kp * e t - kd * q t - w t))
        = (↑(2 : ℕ) * q t ^ (2 - 1) * (-kp * e t - kd * q t - w t)) / 2 + (kp * (↑(2 : ℕ) * e t ^ (2 - 1) * q t)) / 2
          + (c * q t * q t + c * e t * (-kp * e t - kd * q t - w t)) := by
      push_cast; ring
    rw [ee]
    exact h
  have hVl : ∀ t, 0 ≤ t → q t * (-kp * e t - kd * q t - w t) + kp * e t * q t + (c * q t * q t + c * e t * (-kp * e t - kd * q t - w t))
      ≤ -(2 / 5 * c) * V t + 25 / 16 * W ^ 2 / c := by
    intro t ht
    have k1 := abs_le.1 (cross (e t) (q t))
    have kw : w t ^ 2 ≤ W ^ 2 := by rw [← sq_abs (w t)]; exact pow_le_pow_left₀ (abs_nonneg _) (hw t ht) 2
    show _ ≤ -(2 / 5 * c) * (q t ^ 2 / 2 + kp * e t ^ 2 / 2 + c * e t * q t) + 25 / 16 * W ^ 2 / c
    generalize e t = a at *
    generalize q t = b at *
    generalize w t = d at *
    -- the mixed term
    have m1 : -(c * kd * a * b) ≤ c * kp * a ^ 2 / 2 + kd / 4 * b ^ 2 := by
      have h1 : 0 ≤ (kp * a + kd * b) ^ 2 := sq_nonneg _
      have h2 := mul_nonneg c0.le h1
      have h3 := mul_le_mul_of_nonneg_right c3 (sq_nonneg b)
      have h4 : 0 ≤ kp * (c * kp * a ^ 2 / 2 + kd / 4 * b ^ 2 + c * kd * a * b) := by nlinarith
      have h5 := nonneg_of_mul_nonneg_right h4 hp
      linarith
    -- the disturbance
    have m2 : -(d * (b + c * a)) ≤ c / 4 * (b ^ 2 + kp * a ^ 2) + 25 / 16 * W ^ 2 / c := by
      have h1 : (b + c * a) ^ 2 ≤ 25 / 16 * (b ^ 2 + kp * a ^ 2) := by
        have := mul_le_mul_of_nonneg_right c2 (sq_nonneg a)
        nlinarith [k1.2, sq_nonneg b, mul_nonneg hp.le (sq_nonneg a)]
      have h2 : 0 ≤ (2 / 5 * c * (b + c * a) + 5 / 4 * d) ^ 2 := sq_nonneg _
      have h3 : -(d * (b + c * a)) * c ≤ 4 / 25 * c ^ 2 * (b + c * a) ^ 2 + 25 / 16 * W ^ 2 := by nlinarith
      have h4 := mul_le_mul_of_nonneg_left h1 (show 0 ≤ 4 / 25 * c ^ 2 by positivity)
      have h5 : -(d * (b + c * a)) * c ≤ (c / 4 * (b ^ 2 + kp * a ^ 2) + 25 / 16 * W ^ 2 / c) * c := by
        have : (c / 4 * (b ^ 2 + kp * a ^ 2) + 25 / 16 * W ^ 2 / c) * c = c ^ 2 / 4 * (b ^ 2 + kp * a ^ 2) + 25 / 16 * W ^ 2 := by field_simp
        rw [this]; linarith
      exact le_of_mul_le_mul_right h5 c0
    have m3 : (b ^ 2 / 2 + kp * a ^ 2 / 2 + c * a * b) ≤ 5 / 8 * (b ^ 2 + kp * a ^ 2) := by linarith [k1.2]
    have m4 := mul_le_mul_of_nonneg_left m3 c0.le
    have m5 := mul_le_mul_of_nonneg_right c1 (sq_nonneg b)
    nlinarith
  have hdec := decay (l := 2 / 5 * c) (by positivity) hVd hVl ht
  have hB : 25 / 16 * W ^ 2 / c / (2 / 5 * c) = 125 / 32 * (W / c) ^ 2 := by field_simp; ring
  rw [hB] at hdec
  have hlow : 3 / 8 * (q t ^ 2 + kp * e t ^ 2) ≤ V t := by
    have := (abs_le.1 (cross (e t) (q t))).1
    show _ ≤ q t ^ 2 / 2 + kp * e t ^ 2 / 2 + c * e t * q t
    linarith
  have hup : V 0 ≤ 5 / 8 * (q 0 ^ 2 + kp * e 0 ^ 2) := by
    have := (abs_le.1 (cross (e 0) (q 0))).2
    show q 0 ^ 2 / 2 + kp * e 0 ^ 2 / 2 + c * e 0 * q 0 ≤ _
    linarith
  have hexp := (Real.exp_pos (-(2 / 5 * c * t))).le
  have h1 := mul_le_mul_of_nonneg_right hup hexp
  have h2 : 0 ≤ 125 / 32 * (W / c) ^ 2 * Real.exp (-(2 / 5 * c * t)) := by positivity
  nlinarith

/-! ## The controller -/

variable {n : ℕ}

/-- A double integrator `x'' = u + w` whose input is at each time what the controller returns there, after whatever operations it has seen, provided
these have left it with the gains `kp`, `kd`, `ki` and the reference `r`. -/
structure ClosedLoop (env : Env ℝ (Vec n ℝ) ℝ n) (b : ℝ) (kp kd ki : Vec n ℝ) (r : Traj ℝ (Vec n ℝ) ℝ n) (w x v : ℝ → Vec n ℝ) : Prop where
  pos : ∀ t, 0 ≤ t → ∀ k, HasDerivAt (fun t => x t k) (v t k) t
  vel : ∀ t, 0 ≤ t → ∃ ops, (run env (init env (some b)) ops).kp = kp ∧ (run env (init env (some b)) ops).kd = kd ∧
    (run env (init env (some b)) ops).ki = ki ∧ (run env (init env (some b)) ops).xdes = r ∧
    ∀ k, HasDerivAt (fun t => v t k) ((call env (run env (init env (some b)) ops) t (x t) (v t)).2 k + w t k) t

/-- **C149** The error decays at an exponential rate to a ball that is set by the disturbance and the largest integral term. -/
theorem pid_tracks (env : Env ℝ (Vec n ℝ) ℝ n) (hr : ∀ x y k, env.rminus x y k = x k - y k) {b : ℝ} (hb : 0 ≤ b) {kp kd ki : Vec n ℝ}
    {r : Traj ℝ (Vec n ℝ) ℝ n} (hm : Motion r) {w x v : ℝ → Vec n ℝ} (h : ClosedLoop env b kp kd ki r w x v) (k : Fin n) (hp : 0 < kp k) (hd : 0 < kd k)
    {W : ℝ} (hw : ∀ t, 0 ≤ t → |w t k| ≤ W) {t : ℝ} (ht : 0 ≤ t) :
    energy kp r x v t k ≤ 5 / 3 * energy kp r x v 0 k * Real.exp (-(2 / 5 * rate (kp k) (kd k) * t))
      + 125 / 12 * ((W + |ki k| * b) / rate (kp k) (kd k)) ^ 2 := by
  have hdist : ∀ t, 0 ≤ t → ∃ d, |d| ≤ W + |ki k| * b ∧
      HasDerivAt (fun t => (r t).2.1 k - v t k) (-kp k * ((r t).1 k - x t k) - kd k * ((r t).2.1 k - v t k) - d) t := by
    intro t ht
    obtain ⟨ops, g1, g2, g3, g4, g5⟩ := h.vel t ht
    set s := run env (init env (some b)) ops with hs
    have hi : |(call env s t (x t) (v t)).1.iErr k| ≤ b := by
      have := pid_integral_bounded env b hb (ops ++ [.call t (x t) (v t)]) k
      simpa [run, step, hs] using this
    refine ⟨ki k * (call env s t (x t) (v t)).1.iErr k + w t k, ?_, ?_⟩
    · refine (abs_add_le _ _).trans ?_
      rw [abs_mul]
      linarith [mul_le_mul_of_nonneg_left hi (abs_nonneg (ki k)), hw t ht]
    · have hder := ((hm t ht k).2).sub (g5 k)
      have e : (r t).2.2 k - ((call env s t (x t) (v t)).2 k + w t k) = -kp k * ((r t).1 k - x t k) - kd k * ((r t).2.1 k - v t k)
          - (ki k * (call env s t (x t) (v t)).1.iErr k + w t k) := by
        show (r t).2.2 k - (((s.xdes t).2.2 k + s.kp k * env.rminus (s.xdes t).1 (x t) k + s.kd k * ((s.xdes t).2.1 k - v t k)
          + s.ki k * (call env s t (x t) (v t)).1.iErr k) + w t k) = _
        rw [g1, g2, g3, g4, hr]
        ring
      rw [e] at hder
      exact hder
  choose! d hd1 hd2 using hdist
  exact oscillator hp hd (fun t ht => ((hm t ht k).1).sub (h.pos t ht k)) hd2 hd1 ht

/-- **C149** Without integral gain and disturbance the errors vanish exponentially. -/
theorem pid_tracks_exactly (env : Env ℝ (Vec n ℝ) ℝ n) (hr : ∀ x y k, env.rminus x y k = x k - y k) {b : ℝ} (hb : 0 ≤ b) {kp kd : Vec n ℝ}
    {r : Traj ℝ (Vec n ℝ) ℝ n} (hm : Motion r) {x v : ℝ → Vec n ℝ} (h : ClosedLoop env b kp kd 0 r 0 x v) (k : Fin n) (hp : 0 < kp k) (hd : 0 < kd k)
    {t : ℝ} (ht : 0 ≤ t) : energy kp r x v t k ≤ 5 / 3 * energy kp r x v 0 k * Real.exp (-(2 / 5 * rate (kp k) (kd k) * t)) := by
  have := pid_tracks env hr hb hm h k hp hd (W := 0) (fun t _ => by simp) ht
  simpa using this

/-! ## Examples -/

/-- Positions on a line. -/
def trackLine : Env ℝ (Vec 1 ℝ) ℝ 1 := ⟨fun x y => x - y, fun t s => t - s, 0⟩

/-- At rest at 0. -/
def rest : Traj ℝ (Vec 1 ℝ) ℝ 1 := fun _ => (0, 0, 0)

theorem rest_motion : Motion rest := fun t _ k => ⟨hasDerivAt_const t _, hasDerivAt_const t _⟩

theorem trackLine_call (b p d t : ℝ) (x v : Vec 1 ℝ) (k : Fin 1) : (call trackLine (run trackLine (init trackLine (some b))
    [.setKpAll p, .setKdAll d, .setXdes rest]) t x v).2 k = -p * x k - d * v k := by
  simp [call, run, step, trackLine, init, rest, integrate]
  ring

/-- Gains 1 and 2 from position 1 at rest: the position is `(1 + t) e⁻ᵗ`. -/
theorem critical_loop : ClosedLoop trackLine 1 (fun _ => 1) (fun _ => 2) 0 rest 0 (fun t _ => (1 + t) * Real.exp (-t)) (fun t _ => -t * Real.exp (-t)) where
  pos t _ k := by
    have h : HasDerivAt (fun t : ℝ => Real.exp (-t)) (Real.exp (-t) * -1) t := (hasDerivAt_neg t).exp
    have h2 : HasDerivAt (fun t : ℝ => (1 + t) * Real.exp (-t)) (1 * Real.exp (-t) + (1 + t) * (Real.exp (-t) * -1)) t := ((hasDerivAt_id t).const_add 1).mul h
    rw [show 1 * Real.exp (-t) + (1 + t) * (Real.exp (-t) * -1) = -t * Real.exp (-t) by ring] at h2
    exact h2
  vel t _ := by
    refine ⟨[.setKpAll 1, .setKdAll 2, .setXdes rest], rfl, rfl, rfl, rfl, fun k => ?_⟩
    have h : HasDerivAt (fun t : ℝ => Real.exp (-t)) (Real.exp (-t) * -1) t := (hasDerivAt_neg t).exp
    have h2 : HasDerivAt (fun t : ℝ => -t * Real.exp (-t)) (-1 * Real.exp (-t) + -t * (Real.exp (-t) * -1)) t := (hasDerivAt_neg t).mul h
    rw [trackLine_call]
    rw [show -1 * Real.exp (-t) + -t * (Real.exp (-t) * -1) = -1 * ((1 + t) * Real.exp (-t)) - 2 * (-t * Real.exp (-t)) + (0 : ℝ → Vec 1 ℝ) t k by
      simp only [Pi.zero_apply]; ring] at h2
    exact h2

theorem critical_tracks {t : ℝ} (ht : 0 ≤ t) : (-(-t * Real.exp (-t))) ^ 2 + (-((1 + t) * Real.exp (-t))) ^ 2 ≤ 5 / 3 * Real.exp (-(2 / 25 * t)) := by
  have := pid_tracks_exactly trackLine (fun _ _ _ => rfl) zero_le_one rest_motion critical_loop 0 one_pos two_pos ht
  simp only [energy, rest, rate, Pi.zero_apply] at this
  norm_num at this ⊢
  linarith

/-- Without derivative gain the claim fails: the position is `cos t` for ever. -/
theorem undamped_loop : ClosedLoop trackLine 1 (fun _ => 1) (fun _ => 0) 0 rest 0 (fun t _ => Real.cos t) (fun t _ => -Real.sin t) where
  pos t _ k := Real.hasDerivAt_cos t
  vel t _ := by
    refine ⟨[.setKpAll 1, .setKdAll 0, .setXdes rest], rfl, rfl, rfl, rfl, fun k => ?_⟩
    have h := (Real.hasDerivAt_sin t).neg
    rw [trackLine_call]
    rw [show -Real.cos t = -1 * Real.cos t - 0 * (-Real.sin t) + (0 : ℝ → Vec 1 ℝ) t k by simp] at h
    exact h

theorem undamped_energy (t : ℝ) (k : Fin 1) : energy (fun _ => 1) rest (fun t _ => Real.cos t) (fun t _ => -Real.sin t) t k = 1 := by
  simp [energy, rest, Real.sin_sq_add_cos_sq]

end Verif.PID
