import Verif.Props.ASIFSens
import Verif.Props.ASIFPass
import Mathlib.Tactic.NormNum
import Mathlib.Tactic.FinCases

/-!
# Examples and counterexamples for the safety filter

A scalar state and input. `car` has `x' = u` and stands still under the backup controller; its barrier is `1 - x`.
-/

set_option linter.unusedSectionVars false

namespace Verif.ASIF

open Verif.QPSpec
open Verif.QP (Ext Status)

section

variable {F : Type*} [Field F] [LinearOrder F] [IsStrictOrderedRing F]

/-- The real line, twice. -/
def line : Env (Fin 1 → F) (Fin 1 → F) F 1 1 := ⟨fun x v => x + v, fun _ => 0, fun u v => u + v, fun u v => u - v⟩

theorem line_flat : FlatInput (line : Env (Fin 1 → F) (Fin 1 → F) F 1 1) := ⟨fun _ _ => rfl, fun _ _ => rfl⟩

/-- `x' = u`. -/
def car : Dyn (Fin 1 → F) (Fin 1 → F) F 1 1 := ⟨fun _ u => u, fun _ _ => 1⟩
/-- Stand still. -/
def halt : Backup (Fin 1 → F) (Fin 1 → F) F 1 := ⟨fun _ _ => 0, fun _ _ => 0⟩
/-- `1 - x`. -/
def wall : Barrier (Fin 1 → F) F 1 := ⟨1, fun _ x _ => 1 - x 0, fun _ _ _ => 0, fun _ _ => -1⟩
/-- `-1 ≤ u ≤ 1`. -/
def box : Bounds (Fin 1 → F) F 1 := ⟨1, 1, 0, fun _ => .fin (-1), fun _ => .fin 1⟩
/-- No bounds. -/
def free : Bounds (Fin 1 → F) F 1 := ⟨0, fun i => i.elim0, 0, fun i => i.elim0, fun i => i.elim0⟩

/-- Horizon 1, two constraints, step 1/2. -/
def carPrm : FPrm (Fin 1 → F) F 1 := ⟨1, 1, fun _ => 1, box, ⟨2, 1, 1 / 2, 10⟩⟩
/-- The call at `x = 0` with this desired input. -/
def carCall (u : F) : Call (Fin 1 → F) (Fin 1 → F) F 1 := ⟨0, fun _ => u, wall, halt⟩

/-- `steps k` is `k` steps of length `1 / 2`. -/
def carSteps (k : ℕ) : List F := List.replicate k (1 / 2)

theorem carSteps_schedule : Schedule 2 ((1 : F) / (2 : ℕ)) (min (1 / 2) (1 / (2 : ℕ))) carSteps := by
  refine ⟨rfl, fun k hk => ⟨1, ?_, ?_, ?_⟩⟩
  all_goals
    obtain rfl | rfl : k = 0 ∨ k = 1 := by omega
  all_goals norm_num [carSteps, List.replicate_succ]

theorem car_march (l : List F) (t : F) (x : Fin 1 → F) : march line car halt l t x = x := by
  induction l generalizing t with
  | nil => rfl
  | cons e l ih =>
    have : line.xplus x (e • (car : Dyn (Fin 1 → F) (Fin 1 → F) F 1 1).f x (halt.bu t x)) = x := by funext i; simp [line, car, halt]
    rw [march, this, ih]

theorem car_sens (l : List F) (t : F) (x : Fin 1 → F) (S) : sens line car halt l t x S = S := by
  induction l generalizing t x S with
  | nil => rfl
  | cons e l ih =>
    rw [sens, ih]
    simp [halt, line]

theorem car_safe (u : F) (mu : Fin 1 → F) (s : F) :
    Safe line car halt wall ⟨1, 0, fun _ => u, fun _ => 1, box⟩ ⟨2, 1, 1 / 2, 10⟩ carSteps mu s ↔ u + mu 0 ≤ 1 + s := by
  have hb : ∀ k (j : Fin (wall : Barrier (Fin 1 → F) F 1).nh), barrier car wall 1 (0 : Fin 1 → F) (fun _ => u) (carSteps k).sum (march line car halt (carSteps k) 0 0)
      (sens line car halt (carSteps k) 0 0 1) mu j = 1 - (u + mu 0) := by
    intro k j
    rw [car_march, car_sens]
    have : j = (0 : Fin 1) := Subsingleton.elim (α := Fin 1) _ _
    subst this
    simp [barrier, wall, car, Matrix.mulVec, dotProduct]
    ring
  constructor
  · intro h
    have := (hb 0 (0 : Fin 1)) ▸ h 0 (by simp) (0 : Fin 1)
    linarith
  · intro h k _ j
    change 0 ≤ barrier car wall 1 (0 : Fin 1 → F) (fun _ => u) (carSteps k).sum (march line car halt (carSteps k) 0 0) (sens line car halt (carSteps k) 0 0 1) mu j + s
    rw [hb]
    linarith

theorem car_bounds (u : Fin 1 → F) : InBounds line box u ↔ -1 ≤ u 0 ∧ u 0 ≤ 1 := by
  unfold InBounds InPoly
  constructor
  · intro h
    have := h (0 : Fin 1)
    simpa [box, line, lower, upper, Matrix.mulVec, dotProduct] using this
  · intro h i
    have : i = (0 : Fin 1) := Subsingleton.elim (α := Fin 1) _ _
    subst this
    simpa [box, line, lower, upper, Matrix.mulVec, dotProduct] using h

theorem car_update (u : F) : toQP line car halt wall ⟨1, 0, fun _ => u, fun _ => 1, box⟩ ⟨2, 1, 1 / 2, 10⟩ 3 =
    some (built line car halt wall ⟨1, 0, fun _ => u, fun _ => 1, box⟩ ⟨2, 1, 1 / 2, 10⟩ carSteps) :=
  update_eq _ _ _ _ _ _ _ carSteps carSteps_schedule (fun k hk => by
    have : k ≤ 2 := hk
    simp [carSteps]
    omega) _ (allocate_clean _ _ _ _)

/-- The program of the car: the corrected input stays below the wall up to the slack, and within the bounds. -/
example (u : F) (v : Fin 2 → F) :
    ∃ qp, toQP line car halt wall ⟨1, 0, fun _ => u, fun _ => 1, box⟩ ⟨2, 1, 1 / 2, 10⟩ 3 = some qp ∧
      (Feasible (qp.pbm 2 4) v ↔ u + v 0 ≤ 1 + v 1 ∧ (-1 ≤ u + v 0 ∧ u + v 0 ≤ 1) ∧ 0 ≤ v 1) ∧ cost (qp.pbm 2 4) v = (v 0 ^ 2 + 10 * v 1 ^ 2) / 2 := by
  refine ⟨_, car_update u, ?_, ?_⟩
  · have := asif_input_rows line line_flat car halt wall ⟨1, 0, fun _ => u, fun _ => 1, box⟩ ⟨2, 1, 1 / 2, 10⟩ carSteps carSteps_schedule 3 _ (car_update u) v
    rw [car_safe, car_bounds] at this
    exact this
  · have := ((asif_program line car halt wall ⟨1, 0, fun _ => u, fun _ => 1, box⟩ ⟨2, 1, 1 / 2, 10⟩ carSteps carSteps_schedule 3 _ (car_update u)).2 v).2
    refine this.trans ?_
    simp [corr, slack]

/-- The hypotheses of `asif_schedule` and `asif_feasible` are met, with a desired input outside the bounds. -/
example : ∃ v, Feasible ((built line car halt wall ⟨1, 0, fun _ => (2 : ℚ), fun _ => 1, box⟩ ⟨2, 1, 1 / 2, 10⟩ carSteps).pbm 2 4) v :=
  asif_feasible line car halt wall ⟨1, 0, fun _ => (2 : ℚ), fun _ => 1, box⟩ ⟨2, 1, 1 / 2, 10⟩ 3 _ (car_update 2) 0 ((car_bounds _).mpr (by norm_num))

end

/-! ## A solver that knows one point -/

open Classical in
/-- A solver that returns the given point if it is a minimiser. -/
noncomputable def pick (v : ℕ → ℚ) : Solver ℚ := fun qp _ =>
  if Minimiser (qp.pbm qp.q.size qp.l.size) (fun i => v i) then some ⟨.optimal, ⟨qp.q.size, v⟩, ⟨qp.l.size, fun _ => 0⟩⟩
  else some ⟨.unknown, ⟨qp.q.size, fun _ => 0⟩, ⟨qp.l.size, fun _ => 0⟩⟩

theorem pick_exact (v : ℕ → ℚ) : Exact (pick v) := by
  intro qp warm r h hc
  unfold pick at h
  split_ifs at h with hm
  · cases h; exact ⟨rfl, hm⟩
  · cases h; cases hc

theorem car_call (v : ℕ → ℚ) (u : ℚ)
    (hm : Minimiser ((built line car halt wall ⟨1, 0, fun _ => u, fun _ => 1, box⟩ ⟨2, 1, 1 / 2, 10⟩ carSteps).pbm 2 4) (fun i => v i)) :
    ∃ s', (Filter.new car carPrm).call line (pick v) 3 (carCall u) = some (s', fun _ => u + v 0, .optimal) := by
  have h1 := asif_call_program line (pick v) 3 car carPrm [] _ rfl (carCall u) rfl
  rw [h1]
  have h2 : toQP line car (carCall u).b (carCall u).h ⟨carPrm.T, (carCall u).g, (carCall u).udes, carPrm.W, carPrm.ulim⟩ carPrm.asif 3 =
      some (built line car halt wall ⟨1, 0, fun _ => u, fun _ => 1, box⟩ ⟨2, 1, 1 / 2, 10⟩ carSteps) := car_update u
  rw [h2, Option.bind_some]
  have h3 : ∀ w, pick v (built line car halt wall ⟨1, 0, fun _ => u, fun _ => 1, box⟩ ⟨2, 1, 1 / 2, 10⟩ carSteps) w =
      some ⟨.optimal, ⟨2, v⟩, ⟨4, fun _ => 0⟩⟩ := fun w => by unfold pick; exact if_pos hm
  rw [h3, Option.bind_some]
  rw [if_pos (by simp)]
  have h4 : (fun i : Fin 1 => v i) = fun _ => v 0 := by
    funext i
    have : i = 0 := Subsingleton.elim _ _
    subst this
    rfl
  exact ⟨_, by rw [h4]; rfl⟩

/-- `asif_passes`: the input `1 / 2` is harmless and comes back. -/
example : ∃ s', (Filter.new car carPrm).call line (pick fun _ => 0) 3 (carCall (1 / 2)) = some (s', fun _ => 1 / 2, .optimal) := by
  have hm := (asif_zero_unique line car halt wall ⟨1, 0, fun _ => (1 / 2 : ℚ), fun _ => 1, box⟩ ⟨2, 1, 1 / 2, 10⟩ (by norm_num) (by norm_num) carSteps
    carSteps_schedule 3 _ (car_update _) ((car_bounds _).mpr (by norm_num)) ((car_safe _ _ _).mpr (by norm_num)) 0).mpr rfl
  simpa using car_call (fun _ => 0) (1 / 2) hm

/-- `asif_safe`: the input `2` is out of bounds; the filter returns `1`. -/
example : ∃ s', (Filter.new car carPrm).call line (pick fun i => if i = 0 then -1 else 0) 3 (carCall 2) = some (s', fun _ => 1, .optimal) := by
  have hrow := asif_input_rows line line_flat car halt wall ⟨1, 0, fun _ => (2 : ℚ), fun _ => 1, box⟩ ⟨2, 1, 1 / 2, 10⟩ carSteps carSteps_schedule 3 _ (car_update 2)
  have hcost := (asif_program line car halt wall ⟨1, 0, fun _ => (2 : ℚ), fun _ => 1, box⟩ ⟨2, 1, 1 / 2, 10⟩ carSteps carSteps_schedule 3 _ (car_update 2)).2
  have hm : Minimiser ((built line car halt wall ⟨1, 0, fun _ => (2 : ℚ), fun _ => 1, box⟩ ⟨2, 1, 1 / 2, 10⟩ carSteps).pbm 2 4)
      (fun i => if (i : ℕ) = 0 then -1 else 0) := by
    constructor
    · refine (hrow _).mpr ?_
      rw [car_safe, car_bounds]
      norm_num [corr, slack, line]
    · intro w hw
      obtain ⟨-, h2, h3⟩ := (hrow w).mp hw
      rw [car_bounds] at h2
      have h4 : w 0 ≤ -1 := by
        have := h2.2
        simp only [line, corr, Pi.add_apply] at this
        have e : w (Fin.castSucc 0) = w 0 := rfl
        rw [e] at this
        linarith
      have c1 := (hcost w).2
      have c2 := (hcost fun i => if (i : ℕ) = 0 then -1 else 0).2
      refine c2.le.trans (le_trans ?_ c1.ge)
      have e : corr w (0 : Fin 1) = w 0 := rfl
      simp only [Finset.univ_unique, Fin.default_eq_zero, Finset.sum_singleton, e]
      norm_num [corr, slack]
      nlinarith [sq_nonneg (w 1)]
  obtain ⟨s', h⟩ := car_call (fun i => if i = 0 then -1 else 0) 2 hm
  refine ⟨s', ?_⟩
  rw [h]
  norm_num

/-! ## C68 with the modelled solver over the reals, default parameters -/

theorem realSolver (nu : ℕ) : SolverOk (nu := nu) (QP.realEnv (nu + 1)) QP.Params.default 3 where
  sqrt := QP.realEnv_sqrt _
  ldlt := QP.realEnv_ldlt _
  finds := fun m p hP s hs => QP.realEnv_finds _ _ (by norm_num [QP.Params.default]) (by norm_num [QP.Params.default]) m p hP s hs
  eps := by simp [QP.realEnv]
  sigma := by norm_num [QP.Params.default]
  rho := by norm_num [QP.Params.default]
  epsAbs := by norm_num [QP.Params.default]
  epsRel := by norm_num [QP.Params.default]
  delta := by norm_num [QP.Params.default]
  check := by norm_num [QP.Params.default]
  iter := by intro e h; simp [QP.Params.default] at h
  fuel := le_rfl

theorem car_harmless (u : ℝ) (h1 : -1 ≤ u) (h2 : u ≤ 1) : Harmless line car carPrm carSteps (carCall u) :=
  ⟨rfl, (car_bounds _).mpr ⟨h1, h2⟩, (car_safe u 0 0).mpr (by simpa using h2)⟩

/-- Three calls with harmless inputs. -/
example : ∃ s s', Filter.run line (withQP (QP.realEnv 2) QP.Params.default 3) 3 [carCall (1 / 2), carCall (-1)] (Filter.new car carPrm) = some s ∧
    s.call line (withQP (QP.realEnv 2) QP.Params.default 3) 3 (carCall (1 / 3)) = some (s', fun _ => 1 / 3, .optimal) :=
  asif_pass_exact line (fun u => add_zero u) car carPrm (by intro i; norm_num [carPrm]) (by norm_num [carPrm]) carSteps carSteps_schedule _ _ _ (realSolver 1) 3
    (fun k hk => by
      have : k ≤ 2 := hk
      simp [carSteps]
      omega) _ (by
      intro c hc
      simp only [List.mem_cons, List.not_mem_nil, or_false] at hc
      rcases hc with rfl | rfl
      · exact car_harmless _ (by norm_num) (by norm_num)
      · exact car_harmless _ (by norm_num) (by norm_num)) _ (car_harmless _ (by norm_num) (by norm_num))

/-! ## C47: a constraint at the wrong time -/

/-- `-t`. -/
def clock : Barrier (Fin 1 → ℚ) ℚ 1 := ⟨1, fun t _ _ => -t, fun _ _ _ => -1, fun _ _ => 0⟩

/-- The steps for horizon 2, two constraints and `dt = 7 / 10`. -/
def lateSteps : ℕ → List ℚ
  | 0 => []
  | 1 => [7 / 10, 7 / 10]
  | _ => [7 / 10, 7 / 10, 6 / 10]

theorem lateSteps_schedule : Schedule 2 ((2 : ℚ) / (2 : ℕ)) (min (7 / 10) (2 / (2 : ℕ))) lateSteps := by
  refine ⟨rfl, fun k hk => ?_⟩
  obtain rfl | rfl : k = 0 ∨ k = 1 := by omega
  · refine ⟨2, ?_, ?_, ?_⟩
    · norm_num [lateSteps, List.replicate_succ]
    · intro i hi
      interval_cases i <;> norm_num [lateSteps]
    · norm_num [lateSteps]
  · refine ⟨1, ?_, ?_, ?_⟩
    · norm_num [lateSteps, List.replicate_succ]
    · intro i hi
      interval_cases i; norm_num [lateSteps]
    · norm_num [lateSteps]

/-- **C47, negation.** With horizon 2, two constraints and `dt = 7 / 10` the second constraint is evaluated at time `7 / 5`: the barrier `-t` with
`alpha = 1` asks for the slack `1 + 7 / 5`, not for the documented `1 + 1`. -/
theorem asif_times_wrong : ∃ qp, toQP line car halt clock ⟨2, 0, 0, fun _ => 1, free⟩ ⟨2, 1, 7 / 10, 10⟩ 4 = some qp ∧
    ∀ v : Fin 2 → ℚ, Feasible (qp.pbm 2 3) v ↔ 12 / 5 ≤ v 1 := by
  have hup := update_eq line car halt clock ⟨2, 0, 0, fun _ => 1, free⟩ ⟨2, 1, 7 / 10, 10⟩ 4 lateSteps lateSteps_schedule (fun k hk => by
    have : k ≤ 2 := hk
    interval_cases k <;> simp [lateSteps]) _ (allocate_clean _ _ _ _)
  refine ⟨_, hup, fun v => ?_⟩
  have hF := (asif_program line car halt clock ⟨2, 0, 0, fun _ => 1, free⟩ ⟨2, 1, 7 / 10, 10⟩ lateSteps lateSteps_schedule 4 _ hup).2 v |>.1
  have hb : ∀ k (j : Fin clock.nh), barrier car clock 1 (0 : Fin 1 → ℚ) 0 (lateSteps k).sum (march line car halt (lateSteps k) 0 0)
      (sens line car halt (lateSteps k) 0 0 1) (corr v) j = -1 - (lateSteps k).sum := by
    intro k j
    have : j = (0 : Fin 1) := Subsingleton.elim (α := Fin 1) _ _
    subst this
    simp [barrier, clock, Matrix.mulVec, dotProduct]
    ring
  refine hF.trans ?_
  constructor
  · rintro ⟨h1, -, -⟩
    have := (hb 1 (0 : Fin 1)) ▸ h1 1 (by simp) (0 : Fin 1)
    norm_num [lateSteps, slack] at this
    exact this
  · intro h
    refine ⟨fun k hk j => ?_, fun i => i.elim0, ?_⟩
    · change 0 ≤ barrier car clock 1 (0 : Fin 1 → ℚ) 0 (lateSteps k).sum (march line car halt (lateSteps k) 0 0)
        (sens line car halt (lateSteps k) 0 0 1) (corr v) j + slack v
      rw [hb]
      have : k < 2 := hk
      have e : slack v = v 1 := rfl
      rw [e]
      interval_cases k <;> norm_num [lateSteps] <;> linarith
    · have e : slack v = v 1 := rfl
      rw [e]
      linarith

/-- The condition of `asif_times_partial` is met by the car and fails here. -/
example : (∃ n : ℕ, (1 / 2 : ℚ) = n * (1 / 2)) ∧ ¬∃ n : ℕ, (1 : ℚ) = n * (7 / 10) := by
  refine ⟨⟨1, by norm_num⟩, ?_⟩
  rintro ⟨n, h⟩
  have h1 : (10 : ℚ) = n * 7 := by linarith
  have h2 : 10 = n * 7 := by exact_mod_cast h1
  omega

/-- A step of length zero does not end. -/
example : ¬∃ fuel qp, toQP line car halt wall ⟨1, 0, fun _ => (0 : ℚ), fun _ => 1, box⟩ ⟨2, 1, 0, 10⟩ fuel = some qp := by
  rw [asif_terminates_iff]
  norm_num

/-! ## C49: the sensitivity -/

/-- `x' = x^2 + u`. -/
noncomputable def grow : Dyn (Fin 1 → ℝ) (Fin 1 → ℝ) ℝ 1 1 := ⟨fun x u _ => x 0 ^ 2 + u 0, fun _ _ => 1⟩
noncomputable def coast : Backup (Fin 1 → ℝ) (Fin 1 → ℝ) ℝ 1 := ⟨fun _ _ => 0, fun _ x => Matrix.of fun _ _ => 2 * x 0⟩
/-- `x`. -/
noncomputable def pos : Barrier (Fin 1 → ℝ) ℝ 1 := ⟨1, fun _ x _ => x 0, fun _ _ _ => 0, fun _ _ => 1⟩

theorem line_state : FlatState (line : Env (Fin 1 → ℝ) (Fin 1 → ℝ) ℝ 1 1) := ⟨fun _ _ => rfl, fun _ => rfl⟩

theorem grow_closed : HasClosedLoop grow coast := by
  intro t x
  rw [hasFDerivAt_pi']
  intro i
  have h1 : HasFDerivAt (fun y : Fin 1 → ℝ => y 0 ^ 2) ((2 * x 0) • ContinuousLinearMap.proj (R := ℝ) (φ := fun _ : Fin 1 => ℝ) 0) x := by
    have := ((hasFDerivAt_apply (𝕜 := ℝ) (F' := fun _ : Fin 1 => ℝ) 0 x)).pow 2
    simpa using this
  have h2 : (ContinuousLinearMap.proj (R := ℝ) (φ := fun _ : Fin 1 => ℝ) i).comp (lin (coast.dcl t x)) =
      (2 * x 0) • ContinuousLinearMap.proj (R := ℝ) (φ := fun _ : Fin 1 => ℝ) 0 := by
    ext v
    rw [ContinuousLinearMap.comp_apply, lin_apply]
    simp [coast, Matrix.mulVec, dotProduct]
  rw [h2]
  have h3 : (fun y : Fin 1 → ℝ => grow.f y (coast.bu t y) i) = fun y => y 0 ^ 2 := by
    funext y; simp [grow, coast]
  rw [h3]
  exact h1

/-- `steps k` is `k` steps of length 1. -/
noncomputable def unitSteps (k : ℕ) : List ℝ := List.replicate k 1

theorem unitSteps_schedule : Schedule 2 ((2 : ℝ) / (2 : ℕ)) (min 1 (2 / (2 : ℕ))) unitSteps := by
  refine ⟨rfl, fun k hk => ⟨1, ?_, ?_, ?_⟩⟩
  all_goals
    obtain rfl | rfl : k = 0 ∨ k = 1 := by omega
  all_goals norm_num [unitSteps, List.replicate_succ]

/-- **C49, negation.** For `x' = x^2 + u` from `x = 1`, one step of length 1: the derivative of the step by the initial state is 3, but the filter's
program has the row `5 (1 + mu) + s ≥ 0` where the barrier condition for `h = x` is `3 (1 + mu) + s ≥ 0`. -/
theorem asif_sens_wrong :
    HasFDerivAt (fun x => march line grow coast [1] 0 x) (lin (fun _ _ => 3 : Matrix (Fin 1) (Fin 1) ℝ)) (fun _ => 1) ∧
    ∃ qp, toQP line grow coast pos ⟨2, fun _ => 1, 0, fun _ => 1, free⟩ ⟨2, 0, 1, 10⟩ 3 = some qp ∧
      ∀ v : Fin 2 → ℝ, Feasible (qp.pbm 2 3) v ↔ 0 ≤ (1 + v 0) + v 1 ∧ 0 ≤ 5 * (1 + v 0) + v 1 ∧ 0 ≤ v 1 := by
  constructor
  · have h1 := asif_exact_sens line line_state grow coast grow_closed [1] 0 (fun _ => 1)
    have h2 : exactSens line grow coast [1] 0 (fun _ => 1) 1 = fun _ _ => 3 := by
      ext i j
      have hi : i = 0 := Subsingleton.elim _ _
      have hj : j = 0 := Subsingleton.elim _ _
      subst hi hj
      norm_num [exactSens, coast, Matrix.mul_apply, Matrix.of_apply, Matrix.add_apply, Matrix.smul_apply]
    rw [h2] at h1
    exact h1
  · have hup := update_eq line grow coast pos ⟨2, fun _ => 1, 0, fun _ => 1, free⟩ ⟨2, 0, 1, 10⟩ 3 unitSteps unitSteps_schedule (fun k hk => by
      have : k ≤ 2 := hk
      simp [unitSteps]
      omega) _ (allocate_clean _ _ _ _)
    refine ⟨_, hup, fun v => ?_⟩
    have hF := (asif_program line grow coast pos ⟨2, fun _ => 1, 0, fun _ => 1, free⟩ ⟨2, 0, 1, 10⟩ unitSteps unitSteps_schedule 3 _ hup).2 v |>.1
    have e0 : ∀ j : Fin pos.nh, barrier grow pos 0 (fun _ => 1) 0 (unitSteps 0).sum (march line grow coast (unitSteps 0) 0 fun _ => 1)
        (sens line grow coast (unitSteps 0) 0 (fun _ => 1) 1) (corr v) j = 1 + v 0 := by
      intro j
      have : j = (0 : Fin 1) := Subsingleton.elim (α := Fin 1) _ _
      subst this
      have e : corr v 0 = v 0 := rfl
      simp [barrier, pos, grow, unitSteps, sens, Matrix.mulVec, dotProduct, e]
    have e1 : ∀ j : Fin pos.nh, barrier grow pos 0 (fun _ => 1) 0 (unitSteps 1).sum (march line grow coast (unitSteps 1) 0 fun _ => 1)
        (sens line grow coast (unitSteps 1) 0 (fun _ => 1) 1) (corr v) j = 5 * (1 + v 0) := by
      intro j
      have : j = (0 : Fin 1) := Subsingleton.elim (α := Fin 1) _ _
      subst this
      have e : corr v 0 = v 0 := rfl
      have hs : sens line grow coast (unitSteps 1) 0 (fun _ => 1) 1 = fun _ _ => 5 := by
        ext i j
        have hi : i = 0 := Subsingleton.elim _ _
        have hj : j = 0 := Subsingleton.elim _ _
        subst hi hj
        norm_num [unitSteps, List.replicate_succ, sens, coast, grow, line, Matrix.mul_apply, Matrix.sub_apply, Matrix.of_apply]
      rw [hs]
      simp [barrier, pos, grow, Matrix.mulVec, dotProduct, e]
    refine hF.trans ⟨fun ⟨h1, _, h3⟩ => ⟨?_, ?_, h3⟩, fun ⟨h1, h2, h3⟩ => ⟨fun k hk j => ?_, fun i => i.elim0, h3⟩⟩
    · exact (e0 (0 : Fin 1)) ▸ h1 0 (by simp) (0 : Fin 1)
    · exact (e1 (0 : Fin 1)) ▸ h1 1 (by simp) (0 : Fin 1)
    · have hk : k < 2 := hk
      obtain rfl | rfl : k = 0 ∨ k = 1 := by omega
      · refine le_of_le_of_eq h1 ?_
        rw [← e0 j]
        rfl
      · refine le_of_le_of_eq h2 ?_
        rw [← e1 j]
        rfl

/-- `asif_sens_partial` and `asif_sens_error`: the car's closed loop stands still. -/
example : HasClosedLoop (car : Dyn (Fin 1 → ℝ) (Fin 1 → ℝ) ℝ 1 1) halt := by
  intro t x
  have : lin ((halt : Backup (Fin 1 → ℝ) (Fin 1 → ℝ) ℝ 1).dcl t x) = 0 := by
    ext v i
    rw [lin_apply]
    simp [halt]
  rw [this]
  exact hasFDerivAt_const (0 : Fin 1 → ℝ) x

/-- A linear closed loop `x' = -x`. -/
example : HasClosedLoop (⟨fun _ u => u, fun _ _ => 1⟩ : Dyn (Fin 1 → ℝ) (Fin 1 → ℝ) ℝ 1 1) ⟨fun _ x => -x, fun _ _ => -1⟩ := by
  intro t x
  have : lin (-1 : Matrix (Fin 1) (Fin 1) ℝ) = -ContinuousLinearMap.id ℝ _ := by
    ext v i
    rw [lin_apply, Matrix.neg_mulVec, Matrix.one_mulVec]
    rfl
  dsimp only
  rw [this]
  exact (hasFDerivAt_id x).neg

end Verif.ASIF
