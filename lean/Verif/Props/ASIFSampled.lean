import Verif.Props.ASIFInvariant

/-! # C152: the safety filter called once per period, with held inputs -/

set_option linter.unusedSectionVars false

namespace Verif.ASIF

open Verif.QPSpec

/-- On an interval: a function with `f' ≤ -l f + B` decays to `B / l`. -/
theorem decay_on {f f' : ℝ → ℝ} {l B a p : ℝ} (hl : 0 < l) (hc : ContinuousOn f (Set.Icc a (a + p))) (hf : ∀ t ∈ Set.Ioo a (a + p), HasDerivAt f (f' t) t)
    (hd : ∀ t ∈ Set.Ioo a (a + p), f' t ≤ -l * f t + B) {t : ℝ} (ht : t ∈ Set.Icc a (a + p)) :
    f t ≤ (f a - B / l) * Real.exp (-(l * (t - a))) + B / l := by
  have he : ∀ t, HasDerivAt (fun t : ℝ => Real.exp (l * (t - a))) (Real.exp (l * (t - a)) * l) t := by
    intro t
    have h1 : HasDerivAt (fun t : ℝ => l * (t - a)) (l * 1) t := ((hasDerivAt_id t).sub_const a).const_mul l
    rw [mul_one] at h1
    exact h1.exp
  have hu : ∀ t ∈ Set.Ioo a (a + p), HasDerivAt (fun t => (f t - B / l) * Real.exp (l * (t - a)))
      (f' t * Real.exp (l * (t - a)) + (f t - B / l) * (Real.exp (l * (t - a)) * l)) t := fun t ht => ((hf t ht).sub_const (B / l)).mul (he t)
  have ha : AntitoneOn (fun t => (f t - B / l) * Real.exp (l * (t - a))) (Set.Icc a (a + p)) := by
    refine antitoneOn_of_deriv_nonpos (convex_Icc _ _) ((hc.sub continuousOn_const).mul fun t _ => (he t).continuousAt.continuousWithinAt)
      (fun t ht => ?_) (fun t ht => ?_)
    · rw [interior_Icc] at ht
      exact (hu t ht).differentiableAt.differentiableWithinAt
    · rw [interior_Icc] at ht
      rw [(hu t ht).deriv]
      have h1 := hd t ht
      have h2 : f' t + (f t - B / l) * l ≤ 0 := by
        have : (f t - B / l) * l = f t * l - B := by field_simp
        rw [this]; linarith
      have := mul_nonpos_of_nonpos_of_nonneg h2 (Real.exp_pos (l * (t - a))).le
      linarith [show (f' t + (f t - B / l) * l) * Real.exp (l * (t - a)) = f' t * Real.exp (l * (t - a)) + (f t - B / l) * (Real.exp (l * (t - a)) * l) by ring]
  have h := ha (Set.left_mem_Icc.2 (ht.1.trans ht.2)) ht ht.1
  simp only [sub_self, mul_zero, Real.exp_zero, mul_one] at h
  have h2 := mul_le_mul_of_nonneg_right h (Real.exp_pos (-(l * (t - a)))).le
  rw [mul_assoc, ← Real.exp_add, add_neg_cancel, Real.exp_zero, mul_one] at h2
  linarith

variable {X U : Type*} {nx nu : ℕ}

/-- A plant under the filter, called at the times `0, p, 2 p, …`: between two calls the input is what the filter returned at the first of them. -/
structure SampledGuard (env : Env X U ℝ nx nu) (solver : Solver ℝ) (fuel : ℕ) (d : Dyn X U ℝ nx nu) (prm : FPrm U ℝ nu) (h : Barrier X ℝ nx) (p : ℝ)
    (c : ℕ → Call X U ℝ nx) (x : ℝ → X) (u : ℕ → U) : Prop where
  state : ∀ i, (c i).g = x (i * p)
  barrier : ∀ i, (c i).h = h
  input : ∀ i, ∃ cs s s', Filter.run env solver fuel cs (Filter.new d prm) = some s ∧ s.call env solver fuel (c i) = some (s', u i, .optimal)
  continuous : ∀ (i : ℕ) (j), ContinuousOn (fun t => h.h 0 (x t) j) (Set.Icc (i * p) (i * p + p))
  motion : ∀ (i : ℕ), ∀ t ∈ Set.Ioo (i * p : ℝ) (i * p + p), ∀ j, HasDerivAt (fun t => h.h 0 (x t) j) ((h.dx 0 (x t)).mulVec (d.f (x t) (u i)) j) t

/-- Within a period the left-hand side of the barrier condition drops by at most `L`. -/
def Drops (d : Dyn X U ℝ nx nu) (h : Barrier X ℝ nx) (alpha p : ℝ) (x : ℝ → X) (u : ℕ → U) (L : ℝ) : Prop :=
  ∀ (i : ℕ), ∀ t ∈ Set.Ioo (i * p : ℝ) (i * p + p), ∀ j, (h.dx 0 (x (i * p))).mulVec (d.f (x (i * p)) (u i)) j + alpha * h.h 0 (x (i * p)) j - L
    ≤ (h.dx 0 (x t)).mulVec (d.f (x t) (u i)) j + alpha * h.h 0 (x t) j

/-- At each call some correction within the input bounds satisfies all barrier conditions without slack, at weighted cost at most `M`. -/
def SampledRecoverable (env : Env X U ℝ nx nu) (d : Dyn X U ℝ nx nu) (prm : FPrm U ℝ nu) (c : ℕ → Call X U ℝ nx) (steps : ℕ → List ℝ) (M : ℝ) : Prop :=
  ∀ i, ∃ mu, InPoly prm.ulim (env.uminus (c i).udes prm.ulim.c + mu) ∧
    Safe env d (c i).b (c i).h ⟨prm.T, (c i).g, (c i).udes, prm.W, prm.ulim⟩ prm.asif steps mu 0 ∧ ∑ k, prm.W k * mu k ^ 2 ≤ M

/-- **C152** The barrier stays above a curve that decays to `-(sqrt (M / relax) + L) / alpha`. -/
theorem asif_sampled_invariant (env : Env X U ℝ nx nu) (solver : Solver ℝ) (hex : Exact solver) (fuel : ℕ) (d : Dyn X U ℝ nx nu) (prm : FPrm U ℝ nu)
    (haff : ∀ x u mu, d.f x (env.uplus u mu) = d.f x u + (d.du x u).mulVec mu) (hK : 1 ≤ prm.asif.K) (hal : 0 < prm.asif.alpha) (hr : 0 < prm.asif.relax)
    (hW : ∀ i, 0 ≤ prm.W i) {h : Barrier X ℝ nx} (htime : ∀ x j, h.dt 0 x j = 0) {p : ℝ} (hp : 0 < p) {c : ℕ → Call X U ℝ nx} {x : ℝ → X} {u : ℕ → U}
    (hg : SampledGuard env solver fuel d prm h p c x u) {L : ℝ} (hL : Drops d h prm.asif.alpha p x u L) (steps : ℕ → List ℝ)
    (hS : Schedule prm.asif.K (prm.T / prm.asif.K) (min prm.asif.dt (prm.T / prm.asif.K)) steps) {M : ℝ} (hM : SampledRecoverable env d prm c steps M)
    (j : Fin h.nh) {t : ℝ} (ht : 0 ≤ t) :
    (h.h 0 (x 0) j + (√(M / prm.asif.relax) + L) / prm.asif.alpha) * Real.exp (-(prm.asif.alpha * t)) - (√(M / prm.asif.relax) + L) / prm.asif.alpha
      ≤ h.h 0 (x t) j := by
  set σ := √(M / prm.asif.relax) with hσ
  set al := prm.asif.alpha with hald
  have key : ∀ i : ℕ, -σ ≤ (h.dx 0 (x (i * p))).mulVec (d.f (x (i * p)) (u i)) j + al * h.h 0 (x (i * p)) j := by
    intro i
    obtain ⟨cs, s, s', h1, h2⟩ := hg.input i
    obtain ⟨qp, v, q1, q2, q3⟩ := asif_optimal_call env solver hex fuel d prm cs s s' h1 (c i) (u i) h2
    obtain ⟨mu, m1, m2, m3⟩ := hM i
    obtain ⟨b1, b2⟩ := asif_violation_bound_partial env d (c i).b (c i).h ⟨prm.T, (c i).g, (c i).udes, prm.W, prm.ulim⟩ prm.asif hr.le hW steps hS fuel qp q1 v q2 mu 0
      le_rfl m1 m2
    have hs : slack v ≤ σ := by
      refine Real.le_sqrt_of_sq_le ?_
      rw [le_div_iff₀ hr]
      change prm.asif.relax * slack v ^ 2 ≤ ∑ k, prm.W k * mu k ^ 2 + prm.asif.relax * 0 ^ 2 at b2
      nlinarith
    rw [hg.barrier i] at b1
    have b3 := b1 0 (by omega) j
    rw [hS.zero] at b3
    change 0 ≤ ASIF.barrier d h prm.asif.alpha (c i).g (c i).udes 0 (c i).g 1 (corr v) j + slack v at b3
    rw [ASIF.barrier, hg.state i, htime, Matrix.one_mulVec, ← haff, ← q3] at b3
    linarith
  have period : ∀ (i : ℕ) {t : ℝ}, t ∈ Set.Icc (i * p : ℝ) (i * p + p) →
      (h.h 0 (x (i * p)) j + (σ + L) / al) * Real.exp (-(al * (t - i * p))) - (σ + L) / al ≤ h.h 0 (x t) j := by
    intro i t ht
    have := decay_on (f := fun t => -(h.h 0 (x t) j)) (B := σ + L) hal (hg.continuous i j).neg (fun t ht => (hg.motion i t ht j).neg)
      (fun t ht => by linarith [hL i t ht j, key i]) ht
    linarith
  have grid : ∀ i : ℕ, (h.h 0 (x 0) j + (σ + L) / al) * Real.exp (-(al * (i * p))) - (σ + L) / al ≤ h.h 0 (x (i * p)) j := by
    intro i
    induction i with
    | zero => simp
    | succ i ih =>
      have h1 := period i (t := i * p + p) ⟨by linarith, le_rfl⟩
      have e : (((i + 1 : ℕ) : ℝ) * p) = i * p + p := by push_cast; ring
      rw [e]
      refine le_trans ?_ h1
      rw [add_sub_cancel_left, show -(al * (i * p + p)) = -(al * (i * p)) + -(al * p) by ring, Real.exp_add, ← mul_assoc]
      have := mul_le_mul_of_nonneg_right (show (h.h 0 (x 0) j + (σ + L) / al) * Real.exp (-(al * (i * p))) ≤ h.h 0 (x (i * p)) j + (σ + L) / al by linarith)
        (Real.exp_pos (-(al * p))).le
      linarith
  set i := ⌊t / p⌋₊ with hi
  have i1 : (i : ℝ) * p ≤ t := by
    have := Nat.floor_le (div_nonneg ht hp.le)
    rwa [le_div_iff₀ hp] at this
  have i2 : t ≤ i * p + p := by
    have := (Nat.lt_floor_add_one (t / p)).le
    rw [div_le_iff₀ hp] at this
    linarith
  refine le_trans ?_ (period i ⟨i1, i2⟩)
  rw [show -(al * t) = -(al * (i * p)) + -(al * (t - i * p)) by ring, Real.exp_add, ← mul_assoc]
  have := mul_le_mul_of_nonneg_right (show (h.h 0 (x 0) j + (σ + L) / al) * Real.exp (-(al * (i * p))) ≤ h.h 0 (x (i * p)) j + (σ + L) / al by linarith [grid i])
    (Real.exp_pos (-(al * (t - i * p)))).le
  linarith

/-! ## The car, called once per second -/

/-- Positions at the calls. -/
noncomputable def wallPos (i : ℕ) : ℝ := 6 / 5 - 6 / 5 * (1 / 11) ^ i

/-- The position in between. -/
noncomputable def wallDrive (t : ℝ) : ℝ := wallPos ⌊t⌋₊ + (t - ⌊t⌋₊) * (2 - 10 * (1 + wallPos ⌊t⌋₊) / 11)

theorem wallPos_succ (i : ℕ) : wallPos (i + 1) = wallPos i + (2 - 10 * (1 + wallPos i) / 11) := by
  unfold wallPos; rw [pow_succ]; ring

theorem wallPos_range (i : ℕ) : 0 ≤ wallPos i ∧ wallPos i ≤ 6 / 5 := by
  have h1 : (0 : ℝ) ≤ (1 / 11) ^ i := by positivity
  have h2 : ((1 : ℝ) / 11) ^ i ≤ 1 := pow_le_one₀ (by norm_num) (by norm_num)
  unfold wallPos; constructor <;> linarith

theorem wallDrive_eq (i : ℕ) {t : ℝ} (ht : t ∈ Set.Icc (i : ℝ) (i + 1)) : wallDrive t = wallPos i + (t - i) * (2 - 10 * (1 + wallPos i) / 11) := by
  rcases eq_or_lt_of_le ht.2 with h | h
  · have : ⌊t⌋₊ = i + 1 := by rw [h]; exact_mod_cast Nat.floor_natCast (R := ℝ) (i + 1)
    rw [wallDrive, this, wallPos_succ, h]; push_cast; ring
  · have : ⌊t⌋₊ = i := (Nat.floor_eq_iff ((Nat.cast_nonneg i).trans ht.1)).2 ⟨ht.1, h⟩
    rw [wallDrive, this]

theorem wallDrive_at (i : ℕ) : wallDrive i = wallPos i := by rw [wallDrive_eq i ⟨le_rfl, by linarith⟩]; ring

theorem wall_sampled : ∃ fuel, SampledGuard line finder fuel car wallPrm wall 1 (fun i => wallCall (wallPos i)) (fun t _ => wallDrive t)
    (fun i _ => 2 - 10 * (1 + wallPos i) / 11) := by
  obtain ⟨fuel, hf⟩ := wall_call
  refine ⟨fuel, fun i => ?_, fun i => rfl, fun i => ?_, fun i j => ?_, fun i t ht j => ?_⟩
  · show (fun _ => wallPos i) = fun _ => wallDrive (i * 1)
    rw [mul_one, wallDrive_at]
  · obtain ⟨s', h⟩ := hf (wallPos i) (by linarith [(wallPos_range i).1])
    exact ⟨[], _, s', rfl, h⟩
  · rw [mul_one]
    show ContinuousOn (fun t => 1 - wallDrive t) _
    have : ContinuousOn (fun t : ℝ => 1 - (wallPos i + (t - i) * (2 - 10 * (1 + wallPos i) / 11))) (Set.Icc (i : ℝ) (i + 1)) := by fun_prop
    exact this.congr fun t ht => by show 1 - wallDrive t = _; rw [wallDrive_eq i ht]
  · rw [mul_one] at ht
    have h0 : HasDerivAt (fun t : ℝ => (t - i) * (2 - 10 * (1 + wallPos i) / 11)) (1 * (2 - 10 * (1 + wallPos i) / 11)) t :=
      ((hasDerivAt_id t).sub_const (i : ℝ)).mul_const _
    have h1 : HasDerivAt (fun t : ℝ => 1 - (wallPos i + (t - i) * (2 - 10 * (1 + wallPos i) / 11))) (-(1 * (2 - 10 * (1 + wallPos i) / 11))) t :=
      (h0.const_add (wallPos i)).const_sub 1
    have h2 : (fun t => 1 - wallDrive t) =ᶠ[nhds t] fun t : ℝ => 1 - (wallPos i + (t - i) * (2 - 10 * (1 + wallPos i) / 11)) := by
      filter_upwards [Ioo_mem_nhds ht.1 ht.2] with s hs
      rw [wallDrive_eq i ⟨hs.1.le, hs.2.le⟩]
    have h3 := h1.congr_of_eventuallyEq h2
    obtain rfl : j = (0 : Fin 1) := Subsingleton.elim (α := Fin 1) _ _
    have e : (-(1 * (2 - 10 * (1 + wallPos i) / 11)) : ℝ) = ((-1 : Matrix (Fin 1) (Fin 1) ℝ).mulVec (fun _ => 2 - 10 * (1 + wallPos i) / 11)) 0 := by
      rw [Matrix.neg_mulVec, Matrix.one_mulVec, Pi.neg_apply, one_mul]
    rw [e] at h3
    exact h3

/-- The conclusion for the car. -/
theorem wall_sampled_bound {t : ℝ} (ht : 0 ≤ t) :
    (1 + (√((11 / 5) ^ 2 / 10) + 12 / 11)) * Real.exp (-t) - (√((11 / 5) ^ 2 / 10) + 12 / 11) ≤ 1 - wallDrive t := by
  obtain ⟨fuel, hg⟩ := wall_sampled
  obtain ⟨steps, hS⟩ := wall_steps
  have hM : SampledRecoverable line car wallPrm (fun i => wallCall (wallPos i)) steps ((11 / 5) ^ 2) := by
    intro i
    obtain ⟨h1, h2⟩ := wallPos_range i
    refine ⟨fun _ => -(1 + wallPos i), fun i => i.elim0, ?_, ?_⟩
    · exact (wall_safe steps hS.zero (wallPos i) _ 0).2 (by linarith)
    · simp only [wallPrm, Finset.univ_unique, Finset.sum_singleton]
      nlinarith
  have hL : Drops (car : Dyn (Fin 1 → ℝ) (Fin 1 → ℝ) ℝ 1 1) wall 1 1 (fun t _ => wallDrive t) (fun i _ => 2 - 10 * (1 + wallPos i) / 11) (12 / 11) := by
    intro i t ht j
    rw [mul_one] at ht
    obtain ⟨h1, h2⟩ := wallPos_range i
    show _ + 1 * (1 - wallDrive (i * 1)) - 12 / 11 ≤ _ + 1 * (1 - wallDrive t)
    rw [mul_one, wallDrive_at, wallDrive_eq i ⟨ht.1.le, ht.2.le⟩]
    have h3 : (t - i) * (2 - 10 * (1 + wallPos i) / 11) ≤ 1 * (12 / 11) :=
      mul_le_mul (by linarith [ht.2]) (by linarith) (by linarith) zero_le_one
    refine sub_le_iff_le_add.2 ?_
    rw [add_assoc]
    exact add_le_add (le_of_eq rfl) (by linarith)
  have := asif_sampled_invariant line finder finder_exact fuel car wallPrm (fun x u mu => by funext i; simp [car, line]) le_rfl one_pos
    (show (0 : ℝ) < 10 by norm_num) (fun _ => zero_le_one) (fun _ _ => rfl) one_pos hg hL steps hS hM (0 : Fin 1) ht
  have e0 : wallDrive 0 = 0 := by
    have := wallDrive_at 0
    rw [Nat.cast_zero] at this
    rw [this]; simp [wallPos]
  simpa [wallPrm, wall, e0] using this

end Verif.ASIF
