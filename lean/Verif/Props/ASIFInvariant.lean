import Verif.Props.ASIFRelax
import Verif.Props.ASIFExamples
import Verif.Props.PIDTrack
import Mathlib.Analysis.SpecialFunctions.Sqrt

/-! # C150: what the safety filter guarantees along the motion of the plant -/

set_option linter.unusedSectionVars false

namespace Verif.ASIF

open Verif.QPSpec

variable {X U : Type*} {nx nu : ℕ}

/-- A plant under the filter: at each time the input is what the filter returns there with code Optimal, after some history of calls; the desired
input and the backup controller of the call are arbitrary. The barrier changes along the motion with its derivative in the direction `f(x, u)`. -/
structure Guarded (env : Env X U ℝ nx nu) (solver : Solver ℝ) (fuel : ℕ) (d : Dyn X U ℝ nx nu) (prm : FPrm U ℝ nu) (h : Barrier X ℝ nx)
    (c : ℝ → Call X U ℝ nx) (x : ℝ → X) (u : ℝ → U) : Prop where
  state : ∀ t, (c t).g = x t
  barrier : ∀ t, (c t).h = h
  input : ∀ t, 0 ≤ t → ∃ cs s s', Filter.run env solver fuel cs (Filter.new d prm) = some s ∧ s.call env solver fuel (c t) = some (s', u t, .optimal)
  motion : ∀ t, 0 ≤ t → ∀ j, HasDerivAt (fun t => h.h 0 (x t) j) ((h.dx 0 (x t)).mulVec (d.f (x t) (u t)) j) t

/-- At each time some correction within the input bounds satisfies all barrier conditions without slack, at weighted cost at most `M`. -/
def Recoverable (env : Env X U ℝ nx nu) (d : Dyn X U ℝ nx nu) (prm : FPrm U ℝ nu) (c : ℝ → Call X U ℝ nx) (steps : ℕ → List ℝ) (M : ℝ) : Prop :=
  ∀ t, 0 ≤ t → ∃ mu, InPoly prm.ulim (env.uminus (c t).udes prm.ulim.c + mu) ∧
    Safe env d (c t).b (c t).h ⟨prm.T, (c t).g, (c t).udes, prm.W, prm.ulim⟩ prm.asif steps mu 0 ∧ ∑ i, prm.W i * mu i ^ 2 ≤ M

/-- **C150** With an exact solver, inputs that enter the dynamics linearly and a barrier without time, each component of the barrier stays above a curve
that decays exponentially to `-sqrt (M / relax) / alpha`. -/
theorem asif_invariant (env : Env X U ℝ nx nu) (solver : Solver ℝ) (hex : Exact solver) (fuel : ℕ) (d : Dyn X U ℝ nx nu) (prm : FPrm U ℝ nu)
    (haff : ∀ x u mu, d.f x (env.uplus u mu) = d.f x u + (d.du x u).mulVec mu) (hK : 1 ≤ prm.asif.K) (hal : 0 < prm.asif.alpha) (hr : 0 < prm.asif.relax)
    (hW : ∀ i, 0 ≤ prm.W i) {h : Barrier X ℝ nx} (htime : ∀ x j, h.dt 0 x j = 0) {c : ℝ → Call X U ℝ nx} {x : ℝ → X} {u : ℝ → U}
    (hg : Guarded env solver fuel d prm h c x u) (steps : ℕ → List ℝ)
    (hS : Schedule prm.asif.K (prm.T / prm.asif.K) (min prm.asif.dt (prm.T / prm.asif.K)) steps) {M : ℝ} (hM : Recoverable env d prm c steps M)
    (j : Fin h.nh) {t : ℝ} (ht : 0 ≤ t) :
    (h.h 0 (x 0) j + √(M / prm.asif.relax) / prm.asif.alpha) * Real.exp (-(prm.asif.alpha * t)) - √(M / prm.asif.relax) / prm.asif.alpha ≤ h.h 0 (x t) j := by
  set σ := √(M / prm.asif.relax) with hσ
  have key : ∀ t, 0 ≤ t → -((h.dx 0 (x t)).mulVec (d.f (x t) (u t)) j) ≤ -prm.asif.alpha * -(h.h 0 (x t) j) + σ := by
    intro t ht
    obtain ⟨cs, s, s', h1, h2⟩ := hg.input t ht
    obtain ⟨qp, v, q1, q2, q3⟩ := asif_optimal_call env solver hex fuel d prm cs s s' h1 (c t) (u t) h2
    obtain ⟨mu, m1, m2, m3⟩ := hM t ht
    obtain ⟨b1, b2⟩ := asif_violation_bound_partial env d (c t).b (c t).h ⟨prm.T, (c t).g, (c t).udes, prm.W, prm.ulim⟩ prm.asif hr.le hW steps hS fuel qp q1 v q2 mu 0
      le_rfl m1 m2
    have hs : slack v ≤ σ := by
      refine Real.le_sqrt_of_sq_le ?_
      rw [le_div_iff₀ hr]
      have : ∑ i, prm.W i * mu i ^ 2 ≤ M := m3
      change prm.asif.relax * slack v ^ 2 ≤ ∑ i, prm.W i * mu i ^ 2 + prm.asif.relax * 0 ^ 2 at b2
      nlinarith
    rw [hg.barrier t] at b1
    have b3 := b1 0 (by omega) j
    rw [hS.zero] at b3
    change 0 ≤ ASIF.barrier d h prm.asif.alpha (c t).g (c t).udes 0 (c t).g 1 (corr v) j + slack v at b3
    rw [ASIF.barrier, hg.state t, htime, Matrix.one_mulVec, ← haff, ← q3] at b3
    linarith
  have := PID.decay (f := fun t => -(h.h 0 (x t) j)) hal (fun t ht => (hg.motion t ht j).neg) key ht
  linarith

/-- **C150** If the desired inputs themselves always satisfy the barrier conditions, the safe set is invariant. -/
theorem asif_invariant_exact (env : Env X U ℝ nx nu) (solver : Solver ℝ) (hex : Exact solver) (fuel : ℕ) (d : Dyn X U ℝ nx nu) (prm : FPrm U ℝ nu)
    (haff : ∀ x u mu, d.f x (env.uplus u mu) = d.f x u + (d.du x u).mulVec mu) (hK : 1 ≤ prm.asif.K) (hal : 0 < prm.asif.alpha) (hr : 0 < prm.asif.relax)
    (hW : ∀ i, 0 ≤ prm.W i) {h : Barrier X ℝ nx} (htime : ∀ x j, h.dt 0 x j = 0) {c : ℝ → Call X U ℝ nx} {x : ℝ → X} {u : ℝ → U}
    (hg : Guarded env solver fuel d prm h c x u) (steps : ℕ → List ℝ)
    (hS : Schedule prm.asif.K (prm.T / prm.asif.K) (min prm.asif.dt (prm.T / prm.asif.K)) steps) (hM : Recoverable env d prm c steps 0)
    (j : Fin h.nh) {t : ℝ} (ht : 0 ≤ t) : h.h 0 (x 0) j * Real.exp (-(prm.asif.alpha * t)) ≤ h.h 0 (x t) j := by
  have := asif_invariant env solver hex fuel d prm haff hK hal hr hW htime hg steps hS hM j ht
  simpa using this

/-! ## A car driven at a wall -/

/-- A solver that finds minimisers. -/
noncomputable def finder : Solver ℝ := fun qp _ =>
  open Classical in
  if h : ∃ z : ℕ → ℝ, Minimiser (qp.pbm qp.q.size qp.l.size) fun i => z i then some ⟨.optimal, ⟨qp.q.size, h.choose⟩, ⟨0, fun _ => 0⟩⟩ else none

theorem finder_exact : Exact finder := by
  intro qp warm r hr _
  unfold finder at hr
  split at hr
  · next h =>
    obtain rfl := Option.some.inj hr
    exact ⟨rfl, h.choose_spec⟩
  · cases hr

/-- One constraint at the present state, `alpha = 1`, weight 1, price of the slack 10, no input bounds. -/
noncomputable def wallPrm : FPrm (Fin 1 → ℝ) ℝ 1 := ⟨1, 1, fun _ => 1, free, ⟨1, 1, 1, 10⟩⟩

/-- The car at `x` with desired input 2. -/
noncomputable def wallCall (x : ℝ) : Call (Fin 1 → ℝ) (Fin 1 → ℝ) ℝ 1 := ⟨fun _ => x, fun _ => 2, wall, halt⟩

theorem wall_safe (steps : ℕ → List ℝ) (h0 : steps 0 = []) (x : ℝ) (mu : Fin 1 → ℝ) (s : ℝ) :
    Safe line car halt wall ⟨1, fun _ => x, fun _ => 2, fun _ => 1, free⟩ ⟨1, 1, 1, 10⟩ steps mu s ↔ 0 ≤ 1 - x - (2 + mu 0) + s := by
  have e : ASIF.barrier car wall 1 (fun _ => x) (fun _ => 2) 0 (fun _ => x) 1 mu (0 : Fin 1) + s = 1 - x - (2 + mu 0) + s := by
    simp only [ASIF.barrier, wall, car, Matrix.one_mulVec, Matrix.neg_mulVec, Pi.neg_apply, Pi.add_apply]
    ring
  constructor
  · intro h
    have h1 := h 0 (by norm_num) (0 : Fin 1)
    rw [h0] at h1
    change 0 ≤ ASIF.barrier car wall 1 (fun _ => x) (fun _ => 2) 0 (fun _ => x) 1 mu (0 : Fin 1) + s at h1
    rwa [e] at h1
  · intro h k hk j
    obtain rfl : k = 0 := by change k < 1 at hk; omega
    obtain rfl : j = (0 : Fin 1) := Subsingleton.elim (α := Fin 1) _ _
    rw [h0]
    change 0 ≤ ASIF.barrier car wall 1 (fun _ => x) (fun _ => 2) 0 (fun _ => x) 1 mu (0 : Fin 1) + s
    rwa [e]

theorem wall_steps : ∃ steps : ℕ → List ℝ, Schedule 1 (1 / ((1 : ℕ) : ℝ)) (min 1 (1 / ((1 : ℕ) : ℝ))) steps := by
  obtain ⟨steps, hS, -⟩ := asif_schedule (1 : ℝ) 1 1 one_pos one_pos le_rfl
  exact ⟨steps, hS⟩

/-- The input that the filter returns at `x ≥ -1`: the minimiser of `mu² + 10 s²` gives `2 - 10 (1 + x) / 11`. -/
theorem wall_call : ∃ fuel, ∀ x : ℝ, -1 ≤ x → ∃ s', (Filter.new car wallPrm).call line finder fuel (wallCall x)
    = some (s', fun _ => 2 - 10 * (1 + x) / 11, .optimal) := by
  obtain ⟨steps, hS⟩ := wall_steps
  refine ⟨(Finset.range (1 + 1)).sup (fun k => (steps k).length) + 1, fun x hx => ?_⟩
  set fuel := (Finset.range (1 + 1)).sup (fun k => (steps k).length) + 1 with hfuel
  obtain ⟨qp, hq'⟩ : ∃ qp, toQP line car halt wall ⟨1, fun _ => x, fun _ => 2, fun _ => 1, free⟩ ⟨1, 1, 1, 10⟩ fuel = some qp :=
    ⟨_, update_eq line car halt wall ⟨1, fun _ => x, fun _ => 2, fun _ => 1, free⟩ ⟨1, 1, 1, 10⟩ fuel steps hS (fun k hk =>
      Nat.lt_succ_of_le (Finset.le_sup (f := fun k => (steps k).length) (Finset.mem_range.mpr (Nat.lt_succ_of_le hk)))) _ (allocate_clean _ _ _ _)⟩
  obtain ⟨hsz, hprog⟩ := asif_program line car halt wall ⟨1, fun _ => x, fun _ => 2, fun _ => 1, free⟩ ⟨1, 1, 1, 10⟩ steps hS fuel qp hq'
  have hfe : ∀ v : Fin 2 → ℝ, Feasible (qp.pbm 2 (1 * 1 + 0 + 1)) v ↔ 0 ≤ 1 - x - (2 + v 0) + v 1 ∧ 0 ≤ v 1 := fun v => by
    rw [show Feasible (qp.pbm 2 (1 * 1 + 0 + 1)) v ↔ _ from (hprog v).1, wall_safe steps hS.zero]
    exact ⟨fun h => ⟨h.1, h.2.2⟩, fun h => ⟨h.1, fun i => i.elim0, h.2⟩⟩
  have hco : ∀ v : Fin 2 → ℝ, cost (qp.pbm 2 (1 * 1 + 0 + 1)) v = (v 0 ^ 2 + 10 * v 1 ^ 2) / 2 := fun v => by
    rw [show cost (qp.pbm 2 (1 * 1 + 0 + 1)) v = _ from (hprog v).2]
    simp [corr, slack]
  have hmin : ∀ v : Fin 2 → ℝ, Minimiser (qp.pbm 2 (1 * 1 + 0 + 1)) v ↔ v 0 = -(10 * (1 + x) / 11) ∧ v 1 = (1 + x) / 11 := by
    have hlow : ∀ v : Fin 2 → ℝ, Feasible (qp.pbm 2 (1 * 1 + 0 + 1)) v → 10 * (1 + x) ^ 2 + (v 0 + 10 * v 1) ^ 2 ≤ 11 * (v 0 ^ 2 + 10 * v 1 ^ 2) := by
      intro v hv
      have h1 := ((hfe v).1 hv).1
      nlinarith [mul_nonneg (by linarith : 0 ≤ v 1 - v 0 - (1 + x)) (by linarith : 0 ≤ v 1 - v 0 + (1 + x))]
    have hopt : Feasible (qp.pbm 2 (1 * 1 + 0 + 1)) ![-(10 * (1 + x) / 11), (1 + x) / 11] := by
      rw [hfe]
      simp only [Matrix.cons_val_zero, Matrix.cons_val_one]
      constructor <;> linarith
    intro v
    constructor
    · rintro ⟨m1, m2⟩
      have h1 := hlow v m1
      have h2 := m2 _ hopt
      rw [hco, hco] at h2
      simp only [Matrix.cons_val_zero, Matrix.cons_val_one] at h2
      have h3 : (v 0 + 10 * v 1) ^ 2 ≤ 0 := by nlinarith
      have h4 : v 0 + 10 * v 1 = 0 := by
        have := le_antisymm h3 (sq_nonneg _)
        exact pow_eq_zero_iff (two_ne_zero) |>.1 this
      have h5 := ((hfe v).1 m1).1
      have h6 : v 0 = -(10 * v 1) := by linarith
      rw [h6] at h2 h5
      have h7 : v 1 ≤ (1 + x) / 11 := by
        by_contra hc
        push Not at hc
        have : ((1 + x) / 11) ^ 2 < v 1 ^ 2 := pow_lt_pow_left₀ hc (by linarith) two_ne_zero
        nlinarith
      have h8 : v 1 = (1 + x) / 11 := by linarith
      exact ⟨by rw [h6, h8]; ring, h8⟩
    · rintro ⟨m1, m2⟩
      have e : v = ![-(10 * (1 + x) / 11), (1 + x) / 11] := by
        funext i; fin_cases i
        · simpa using m1
        · simpa using m2
      refine ⟨by rw [e]; exact hopt, fun w hw => ?_⟩
      have := hlow w hw
      rw [hco, hco, m1, m2]
      nlinarith [sq_nonneg (w 0 + 10 * w 1)]
  have hqs : qp.q.size = 2 := hsz.q
  have hls : qp.l.size = 1 * 1 + 0 + 1 := hsz.l
  have hex : ∃ z : ℕ → ℝ, Minimiser (qp.pbm qp.q.size qp.l.size) fun i => z i := by
    refine ⟨fun i => if i = 0 then -(10 * (1 + x) / 11) else (1 + x) / 11, ?_⟩
    rw [hqs, hls, hmin]
    exact ⟨rfl, rfl⟩
  have hsol : finder qp (Filter.new car wallPrm).warm = some ⟨.optimal, ⟨qp.q.size, hex.choose⟩, ⟨0, fun _ => 0⟩⟩ := by
    unfold finder; rw [dif_pos hex]
  have hspec := hex.choose_spec
  generalize hex.choose = z at hspec hsol
  rw [hqs, hls, hmin] at hspec
  have hcall := asif_call_program line finder fuel car wallPrm [] (Filter.new car wallPrm) rfl (wallCall x) rfl
  rw [show toQP line car (wallCall x).b (wallCall x).h ⟨wallPrm.T, (wallCall x).g, (wallCall x).udes, wallPrm.W, wallPrm.ulim⟩ wallPrm.asif fuel = some qp from hq',
    Option.bind_some, hsol, Option.bind_some, if_pos (show 1 ≤ qp.q.size by rw [hqs]; norm_num)] at hcall
  have hin : (line.uplus (wallCall x).udes fun i : Fin 1 => z i) = fun _ => 2 - 10 * (1 + x) / 11 := by
    funext i
    obtain rfl : i = 0 := Subsingleton.elim _ _
    have h1 := hspec.1
    change (2 : ℝ) + z 0 = _
    change z 0 = _ at h1
    rw [h1]; ring
  dsimp only at hcall
  rw [hin] at hcall
  exact ⟨_, hcall⟩

/-- The car from 0: `x(t) = 6/5 (1 - e^(-10 t / 11))`. -/
noncomputable def wallPath (t : ℝ) : ℝ := 6 / 5 - 6 / 5 * Real.exp (-(10 / 11 * t))

theorem wallPath_nonneg {t : ℝ} (ht : 0 ≤ t) : 0 ≤ wallPath t := by
  have : Real.exp (-(10 / 11 * t)) ≤ 1 := Real.exp_le_one_iff.2 (by linarith)
  unfold wallPath; linarith

theorem wallPath_le (t : ℝ) : wallPath t ≤ 6 / 5 := by
  have := Real.exp_pos (-(10 / 11 * t))
  unfold wallPath; linarith

theorem wall_guarded : ∃ fuel, Guarded line finder fuel car wallPrm wall (fun t => wallCall (wallPath t)) (fun t _ => wallPath t)
    (fun t _ => 2 - 10 * (1 + wallPath t) / 11) := by
  obtain ⟨fuel, hf⟩ := wall_call
  refine ⟨fuel, fun t => rfl, fun t => rfl, fun t ht => ?_, fun t ht j => ?_⟩
  · obtain ⟨s', h⟩ := hf (wallPath t) (by linarith [wallPath_nonneg ht])
    exact ⟨[], _, s', rfl, h⟩
  · have h1 : HasDerivAt (fun t : ℝ => -(10 / 11 * t)) (-(10 / 11)) t := by
      have h0 : HasDerivAt (fun t : ℝ => 10 / 11 * t) (10 / 11 * 1) t := (hasDerivAt_id t).const_mul (10 / 11 : ℝ)
      rw [mul_one] at h0
      exact h0.neg
    have h2 : HasDerivAt (fun t : ℝ => 1 - wallPath t) (-(-(6 / 5 * (Real.exp (-(10 / 11 * t)) * -(10 / 11))))) t :=
      ((h1.exp.const_mul (6 / 5)).const_sub (6 / 5)).const_sub 1
    obtain rfl : j = (0 : Fin 1) := Subsingleton.elim (α := Fin 1) _ _
    have e : (-(-(6 / 5 * (Real.exp (-(10 / 11 * t)) * -(10 / 11)))) : ℝ)
        = ((-1 : Matrix (Fin 1) (Fin 1) ℝ).mulVec (fun _ => 2 - 10 * (1 + wallPath t) / 11)) 0 := by
      rw [Matrix.neg_mulVec, Matrix.one_mulVec, Pi.neg_apply]
      unfold wallPath
      ring
    rw [e] at h2
    exact h2

/-- The conclusion for the car, with `M = (11/5)²`. -/
theorem wall_bound {t : ℝ} (ht : 0 ≤ t) : (1 + √((11 / 5) ^ 2 / 10)) * Real.exp (-t) - √((11 / 5) ^ 2 / 10) ≤ 1 - wallPath t := by
  obtain ⟨fuel, hg⟩ := wall_guarded
  obtain ⟨steps, hS⟩ := wall_steps
  have hM : Recoverable line car wallPrm (fun t => wallCall (wallPath t)) steps ((11 / 5) ^ 2) := by
    intro t ht
    refine ⟨fun _ => -(1 + wallPath t), fun i => i.elim0, ?_, ?_⟩
    · exact (wall_safe steps hS.zero (wallPath t) _ 0).2 (by linarith)
    · have h1 := wallPath_nonneg ht
      have h2 := wallPath_le t
      simp only [wallPrm, Finset.univ_unique, Finset.sum_singleton]
      nlinarith
  have := asif_invariant line finder finder_exact fuel car wallPrm (fun x u mu => by funext i; simp [car, line]) le_rfl one_pos
    (show (0 : ℝ) < 10 by norm_num) (fun _ => zero_le_one) (fun _ _ => rfl) hg steps hS hM (0 : Fin 1) ht
  have e0 : wallPath 0 = 0 := by simp [wallPath]
  simpa [wallPrm, wall, e0] using this

/-- The safe set itself is not invariant: the car starts at distance 1 from the wall, every call is Optimal, the input that stops it is admissible, and yet
it passes the wall. -/
theorem wall_passed : (0 : ℝ) ≤ 1 - wallPath 0 ∧ 1 - wallPath 11 < 0 := by
  constructor
  · simp [wallPath]
  · have h1 : Real.exp (-(10 / 11 * 11)) < 1 / 6 := by
      rw [show (-(10 / 11 * 11) : ℝ) = -10 by norm_num, Real.exp_neg, one_div]
      refine inv_strictAnti₀ (by norm_num) ?_
      have := Real.add_one_le_exp (10 : ℝ)
      linarith
    unfold wallPath; linarith

end Verif.ASIF
