import Verif.Spec.PIDOffset
import Verif.Props.PIDSampled

/-! # C154: a constant disturbance of the sampled loop -/

namespace Verif.PID

open PIDSpec Filter

variable {n : ℕ}

/-- **C154** Without integral gain a constant disturbance `w` leaves the position error `-w / kp`. -/
theorem pid_sampled_offset (env : Env ℝ (Vec n ℝ) ℝ n) (hr : ∀ x y k, env.rminus x y k = x k - y k) (s : State ℝ (Vec n ℝ) ℝ n) {h : ℝ} (hh : 0 < h)
    (k : Fin n) (hi : s.ki k = 0) (h0 : 0 < s.kp k) (h1 : s.kp k * h < 2 * s.kd k) (h2 : s.kd k * h < 2) (c : ℕ → Sample ℝ (Vec n ℝ) ℝ n) (w : Vec n ℝ)
    (hp : Piecewise h c s.xdes) (hl : Held h c fun j => output env s c j + w) : SettlesBehind c s.xdes k (-(w k / s.kp k)) := by
  have hne := h0.ne'
  have hl1 : ∀ j, (c (j + 1)).x k = (c j).x k + h * (c j).v k + h ^ 2 / 2 * (output env s c j k + w k) := fun j => (hl j k).1
  have hl2 : ∀ j, (c (j + 1)).v k = (c j).v k + h * (output env s c j k + w k) := fun j => (hl j k).2
  have key := err_tends hh h0 h1 h2 (e := fun j => (s.xdes (c j).t).1 k - (c j).x k + w k / s.kp k) (q := fun j => (s.xdes (c j).t).2.1 k - (c j).v k)
    (fun j => by
      rw [(hp j k).1, hl1 j, output_eq env hr s c j k hi]; field_simp; ring)
    (fun j => by
      rw [(hp j k).2, hl2 j, output_eq env hr s c j k hi]; field_simp; ring)
  refine ⟨?_, key.2⟩
  have := key.1.sub_const (w k / s.kp k)
  rw [zero_sub] at this
  exact this.congr fun j => by ring

theorem integrate_abs_le (env : Env ℝ (Vec n ℝ) ℝ n) (s : State ℝ (Vec n ℝ) ℝ n) {b : ℝ} (hb : 0 ≤ b) (hw : s.windup = some b) (k : Fin n)
    (hI : |s.iErr k| ≤ b) (t : ℝ) (g : Vec n ℝ) : |integrate env s t g k| ≤ b := by
  unfold integrate
  cases s.tLast with
  | none => exact hI
  | some tl =>
    dsimp only
    split_ifs
    · rw [hw]
      simp only [windupClamp]
      rw [abs_le]
      exact ⟨le_min (le_max_right _ _) (by linarith), min_le_right _ _⟩
    · exact hI

theorem run_calls_abs_le (env : Env ℝ (Vec n ℝ) ℝ n) (s : State ℝ (Vec n ℝ) ℝ n) {b : ℝ} (hb : 0 ≤ b) (hw : s.windup = some b) (k : Fin n)
    (hI : |s.iErr k| ≤ b) (c : ℕ → Sample ℝ (Vec n ℝ) ℝ n) (j : ℕ) : |(run env s (calls c j)).iErr k| ≤ b := by
  induction j with
  | zero => exact hI
  | succ j ih =>
    rw [run_calls_succ]
    exact integrate_abs_le env _ hb ((run_calls_const env s c j).1.trans hw) k ih _ _

/-- The integral used by call `j`. -/
noncomputable def used (env : Env ℝ (Vec n ℝ) ℝ n) (s : State ℝ (Vec n ℝ) ℝ n) (c : ℕ → Sample ℝ (Vec n ℝ) ℝ n) (j : ℕ) : Vec n ℝ :=
  (call env (run env s (calls c j)) (c j).t (c j).x (c j).v).1.iErr

/-- If the errors vanish, the integral term and the disturbance cancel in the limit. -/
theorem vanishing_cancels (env : Env ℝ (Vec n ℝ) ℝ n) (hr : ∀ x y k, env.rminus x y k = x k - y k) (s : State ℝ (Vec n ℝ) ℝ n) {h : ℝ} (hh : 0 < h)
    (k : Fin n) (c : ℕ → Sample ℝ (Vec n ℝ) ℝ n) (w : Vec n ℝ)
    (hp : Piecewise h c s.xdes) (hl : Held h c fun j => output env s c j + w) (hv : Vanishes c s.xdes k) :
    Tendsto (fun j => w k + s.ki k * used env s c j k) atTop (nhds 0) := by
  obtain ⟨te, tq⟩ := hv
  have hl2 : ∀ j, (c (j + 1)).v k = (c j).v k + h * (output env s c j k + w k) := fun j => (hl j k).2
  have hlim := (((tq.sub (tq.comp (tendsto_add_atTop_nat 1))).const_mul h⁻¹).sub (te.const_mul (s.kp k))).sub (tq.const_mul (s.kd k))
  simp only [mul_zero, sub_zero] at hlim
  refine hlim.congr fun j => ?_
  obtain ⟨g1, g2, g3⟩ := run_calls_gains env s c j
  have g4 := (run_calls_const env s c j).2
  have ho : output env s c j k = (s.xdes (c j).t).2.2 k + s.kp k * ((s.xdes (c j).t).1 k - (c j).x k) + s.kd k * ((s.xdes (c j).t).2.1 k - (c j).v k)
      + s.ki k * used env s c j k := by
    simp only [output, used, call, g1, g2, g3, g4, ← hr]
  show h⁻¹ * (((s.xdes (c j).t).2.1 k - (c j).v k) - ((s.xdes (c (j + 1)).t).2.1 k - (c (j + 1)).v k)) - s.kp k * ((s.xdes (c j).t).1 k - (c j).x k)
      - s.kd k * ((s.xdes (c j).t).2.1 k - (c j).v k) = _
  rw [(hp j k).2, hl2 j, ho]; field_simp; ring

/-- **C154** Whenever the errors vanish, the integral has learned the disturbance: it tends to `-w / ki`. -/
theorem pid_integral_learns (env : Env ℝ (Vec n ℝ) ℝ n) (hr : ∀ x y k, env.rminus x y k = x k - y k) (s : State ℝ (Vec n ℝ) ℝ n) {h : ℝ} (hh : 0 < h)
    (k : Fin n) (hi : s.ki k ≠ 0) (c : ℕ → Sample ℝ (Vec n ℝ) ℝ n) (w : Vec n ℝ)
    (hp : Piecewise h c s.xdes) (hl : Held h c fun j => output env s c j + w) (hv : Vanishes c s.xdes k) :
    Tendsto (fun j => used env s c j k) atTop (nhds (-(w k / s.ki k))) := by
  have := ((vanishing_cancels env hr s hh k c w hp hl hv).sub_const (w k)).const_mul (s.ki k)⁻¹
  rw [zero_sub, mul_neg, inv_mul_eq_div] at this
  refine this.congr fun j => ?_
  field_simp
  ring

/-- **C154** A disturbance larger than the integral term can become is never compensated, whatever the gains. -/
theorem pid_windup_offset (env : Env ℝ (Vec n ℝ) ℝ n) (hr : ∀ x y k, env.rminus x y k = x k - y k) (s : State ℝ (Vec n ℝ) ℝ n) {h b : ℝ} (hh : 0 < h)
    (hb : 0 ≤ b) (hw : s.windup = some b) (k : Fin n) (hI : |s.iErr k| ≤ b) (c : ℕ → Sample ℝ (Vec n ℝ) ℝ n) (w : Vec n ℝ) (hd : |s.ki k| * b < |w k|)
    (hp : Piecewise h c s.xdes) (hl : Held h c fun j => output env s c j + w) : ¬Vanishes c s.xdes k := by
  intro hv
  have habs := (vanishing_cancels env hr s hh k c w hp hl hv).abs
  rw [abs_zero] at habs
  have hge : |w k| - |s.ki k| * b ≤ 0 := ge_of_tendsto' habs fun j => by
    have hIb : |used env s c j k| ≤ b := by
      have := run_calls_abs_le env s hb hw k hI c (j + 1)
      rwa [run_calls_succ] at this
    have h1 : |s.ki k * used env s c j k| ≤ |s.ki k| * b := by rw [abs_mul]; exact mul_le_mul_of_nonneg_left hIb (abs_nonneg _)
    have h2 := abs_sub_abs_le_abs_sub (w k) (-(s.ki k * used env s c j k))
    rw [abs_neg, sub_neg_eq_add] at h2
    linarith
  linarith

/-! ## A mass pushed with unit force -/

/-- The line with real time. -/
noncomputable def pushEnv : Env ℝ (Vec 1 ℝ) ℝ 1 := ⟨fun x y k => x k - y k, fun a b => a - b, 0⟩

/-- Position and velocity every second, from rest at zero, with the first gains and unit force. -/
noncomputable def pushed : ℕ → ℝ × ℝ
  | 0 => (0, 0)
  | j + 1 => ((pushed j).1 + (pushed j).2 + 1 / 2 * (1 - (pushed j).1 - (pushed j).2), (pushed j).2 + (1 - (pushed j).1 - (pushed j).2))

/-- The position tends to one although the reference is zero. -/
theorem pushed_settles : Tendsto (fun j => (pushed j).1) atTop (nhds 1) := by
  have hz : ∀ t, (init pushEnv none).xdes t = (0, 0, 0) := fun t => rfl
  have := (pid_sampled_offset pushEnv (fun _ _ _ => rfl) (init pushEnv none) (h := 1) one_pos 0 rfl one_pos (by norm_num [init]) (by norm_num [init])
    (fun j => ⟨j, fun _ => (pushed j).1, fun _ => (pushed j).2⟩) (fun _ => 1) (fun j k => by simp [hz])
    (fun j k => by
      simp only [Pi.add_apply, output_eq pushEnv (fun _ _ _ => rfl) (init pushEnv none) _ j k rfl, hz]
      simp only [pushed, init, Pi.zero_apply]
      constructor <;> ring)).1
  have h2 := this.neg
  simp only [init, div_one, neg_neg] at h2
  refine h2.congr fun j => ?_
  show -((0 : ℝ) - (pushed j).1) = (pushed j).1
  ring

/-- Integral gain one, limit 1/2 reached. -/
noncomputable def limited : State ℝ (Vec 1 ℝ) ℝ 1 := { init pushEnv (some (1 / 2)) with ki := fun _ => 1, iErr := fun _ => -(1 / 2) }

/-- The mass rests at 1/2. -/
noncomputable def resting (j : ℕ) : Sample ℝ (Vec 1 ℝ) ℝ 1 := ⟨j, fun _ => 1 / 2, fun _ => 0⟩

theorem limited_iErr (s : State ℝ (Vec 1 ℝ) ℝ 1) (hw : s.windup = some (1 / 2)) (hI : s.iErr = fun _ => -(1 / 2)) (t : ℝ) {g : Vec 1 ℝ} (hg : ∀ k, g k ≤ 0)
    (ht : ∀ tl, s.tLast = some tl → tl ≤ t) : integrate pushEnv s t g = fun _ => -(1 / 2) := by
  unfold integrate
  split
  · exact hI
  · rename_i tl htl
    split_ifs
    · rw [hw, hI]
      funext k
      have h1 : pushEnv.tminus t tl * g k ≤ 0 := mul_nonpos_of_nonneg_of_nonpos (sub_nonneg.2 (ht tl htl)) (hg k)
      simp only [windupClamp]
      rw [max_eq_right (by linarith)]
      norm_num
    · exact hI

theorem limited_run (j : ℕ) : (run pushEnv limited (calls resting j)).iErr = (fun _ => -(1 / 2)) ∧
    ∀ tl, (run pushEnv limited (calls resting j)).tLast = some tl → tl ≤ j := by
  induction j with
  | zero => exact ⟨rfl, fun tl h => by cases h⟩
  | succ j ih =>
    have g := run_calls_const pushEnv limited resting j
    rw [run_calls_succ]
    refine ⟨limited_iErr _ g.1 ih.1 _ (fun k => ?_) ih.2, fun tl h => ?_⟩
    · rw [g.2]
      show (0 : ℝ) - 1 / 2 ≤ 0
      norm_num
    · obtain rfl : (j : ℝ) = tl := Option.some.inj h
      push_cast; linarith

/-- The hypotheses of `pid_windup_offset` at unit force and integral term at most 1/2. -/
theorem resting_offset : (Held 1 resting fun j => output pushEnv limited resting j + fun _ => 1) ∧ ¬Vanishes resting limited.xdes 0 := by
  have hl : Held 1 resting fun j => output pushEnv limited resting j + fun _ => 1 := by
    intro j k
    obtain ⟨g1, g2, g3⟩ := run_calls_gains pushEnv limited resting j
    have g := run_calls_const pushEnv limited resting j
    have hI := limited_iErr _ g.1 (limited_run j).1 (resting j).t (g := pushEnv.rminus (limited.xdes (resting j).t).1 (resting j).x)
      (fun k => by show (0 : ℝ) - 1 / 2 ≤ 0; norm_num) (limited_run j).2
    have ho : output pushEnv limited resting j k = -1 := by
      simp only [output, call, g1, g2, g3, g.2, hI]
      show (0 : ℝ) + 1 * (0 - 1 / 2) + 1 * (0 - 0) + 1 * -(1 / 2) = -1
      norm_num
    simp only [Pi.add_apply, ho]
    simp [resting]
  refine ⟨hl, pid_windup_offset pushEnv (fun _ _ _ => rfl) limited one_pos (b := 1 / 2) (by norm_num) rfl 0 ?_ resting (fun _ => 1) ?_ ?_ hl⟩
  · show |(-(1 / 2) : ℝ)| ≤ 1 / 2
    norm_num [abs_of_pos]
  · show |(1 : ℝ)| * (1 / 2) < |(1 : ℝ)|
    norm_num
  · intro j k
    show (0 : ℝ) = 0 + 1 * 0 + 1 ^ 2 / 2 * 0 ∧ (0 : ℝ) = 0 + 1 * 0
    norm_num

/-- Integral gain one without limit, the integral at `-1`: the mass stays at the reference zero under unit force. -/
noncomputable def learned : State ℝ (Vec 1 ℝ) ℝ 1 := { init pushEnv none with ki := fun _ => 1, iErr := fun _ => -1 }

/-- The mass rests at the reference. -/
noncomputable def held (j : ℕ) : Sample ℝ (Vec 1 ℝ) ℝ 1 := ⟨j, fun _ => 0, fun _ => 0⟩

theorem learned_call (s : State ℝ (Vec 1 ℝ) ℝ 1) (hw : s.windup = none) (hI : s.iErr = fun _ => -1) (t : ℝ) {g : Vec 1 ℝ} (hg : ∀ k, g k = 0) :
    integrate pushEnv s t g = fun _ => -1 := by
  unfold integrate
  cases s.tLast with
  | none => exact hI
  | some tl =>
    dsimp only
    split_ifs
    · rw [hw, hI]
      funext k
      simp [windupClamp, hg]
    · exact hI

theorem learned_run (j : ℕ) : (run pushEnv learned (calls held j)).iErr = fun _ => -1 := by
  induction j with
  | zero => rfl
  | succ j ih =>
    have g := run_calls_const pushEnv learned held j
    rw [run_calls_succ]
    exact learned_call _ g.1 ih _ fun k => by rw [g.2]; exact sub_self (0 : ℝ)

/-- The hypotheses of `pid_integral_learns` at unit force. -/
theorem held_learned : (Held 1 held fun j => output pushEnv learned held j + fun _ => 1) ∧
    Tendsto (fun j => used pushEnv learned held j 0) atTop (nhds (-(1 / 1))) := by
  have hl : Held 1 held fun j => output pushEnv learned held j + fun _ => 1 := by
    intro j k
    obtain ⟨g1, g2, g3⟩ := run_calls_gains pushEnv learned held j
    have g := run_calls_const pushEnv learned held j
    have hI := learned_call _ g.1 (learned_run j) (held j).t (g := pushEnv.rminus (learned.xdes (held j).t).1 (held j).x) fun k => sub_self (0 : ℝ)
    have ho : output pushEnv learned held j k = -1 := by
      simp only [output, call, g1, g2, g3, g.2, hI]
      show (0 : ℝ) + 1 * (0 - 0) + 1 * (0 - 0) + 1 * -1 = -1
      norm_num
    simp only [Pi.add_apply, ho]
    simp [held]
  refine ⟨hl, pid_integral_learns pushEnv (fun _ _ _ => rfl) learned one_pos 0 one_ne_zero held (fun _ => 1) ?_ hl ?_⟩
  · intro j k
    show (0 : ℝ) = 0 + 1 * 0 + 1 ^ 2 / 2 * 0 ∧ (0 : ℝ) = 0 + 1 * 0
    norm_num
  · have h0 : (fun _ : ℕ => (0 : ℝ) - 0) = fun _ => 0 := by funext; ring
    constructor
    · show Tendsto (fun _ : ℕ => (0 : ℝ) - 0) atTop (nhds 0)
      rw [h0]; exact tendsto_const_nhds
    · show Tendsto (fun _ : ℕ => (0 : ℝ) - 0) atTop (nhds 0)
      rw [h0]; exact tendsto_const_nhds

end Verif.PID
