import Verif.Model.ASIFDouble
import Verif.Props.ASIFRelax
import Verif.Props.ASIFPass
import Verif.Props.QPDuality
import Mathlib.Tactic.FinCases

/-!
# The double integrator with a safety filter leaves the safe set (C108)
-/

set_option linter.unusedSectionVars false

namespace Verif.ASIF

open Verif.QPSpec
open Verif.QP (Ext Status)

section

variable {F : Type*} [Field F] [LinearOrder F] [IsStrictOrderedRing F]

theorem diEnv_flat : FlatInput (diEnv : Env (Fin 2 → F) (Fin 1 → F) F 2 1) := ⟨fun _ _ => rfl, fun _ _ => rfl⟩

/-- `steps k` is `k` steps of length `1 / 100`. -/
def diSteps (k : ℕ) : List F := List.replicate k (1 / 100)

theorem diSteps_sum (k : ℕ) : (diSteps k : List F).sum = k / 100 := by
  simp [diSteps, div_eq_mul_inv]

theorem diSteps_schedule : Schedule 50 ((1 / 2 : F) / (50 : ℕ)) (min (1 / 100) ((1 / 2) / (50 : ℕ))) diSteps := by
  have e : (1 / 2 : F) / (50 : ℕ) = 1 / 100 := by norm_num
  rw [e, min_self]
  refine ⟨rfl, fun k hk => ⟨1, ?_, ?_, ?_⟩⟩
  all_goals
    have e2 : (1 / 100 : F) * ((k + 1 : ℕ) : F) - (diSteps k : List F).sum = 1 / 100 := by
      rw [diSteps_sum]; push_cast; ring
  · rw [e2, min_self, diSteps, List.replicate_succ']
    rfl
  · intro i hi
    obtain rfl : i = 0 := by omega
    rw [Nat.cast_zero, zero_mul, add_zero]
    linarith [(by norm_num : (0 : F) < 1 / 100)]
  · rw [diSteps_sum]
    push_cast
    linarith

theorem di_march (k : ℕ) (e t : F) (g : Fin 2 → F) : march diEnv diDyn diBackup (List.replicate k e) t g =
    ![g 0 + k * e * g 1 - 3 / 10 * (k * e) * (k * e - e), g 1 - 3 / 5 * (k * e)] := by
  induction k generalizing t g with
  | zero => funext i; fin_cases i <;> simp [march]
  | succ k ih =>
    rw [List.replicate_succ, march, ih]
    funext i
    fin_cases i
    · simp [diEnv, diDyn, diBackup]; ring
    · simp [diEnv, diDyn, diBackup]; ring

theorem di_sens (k : ℕ) (e t : F) (g : Fin 2 → F) (S : Matrix (Fin 2) (Fin 2) F) :
    sens diEnv diDyn diBackup (List.replicate k e) t g S = !![1, k * e; 0, 1] * S := by
  induction k generalizing t g S with
  | zero =>
    have : (!![1, ((0 : ℕ) : F) * e; 0, 1] : Matrix (Fin 2) (Fin 2) F) = 1 := by
      ext i j; fin_cases i <;> fin_cases j <;> simp
    rw [this, Matrix.one_mul]
    rfl
  | succ k ih =>
    rw [List.replicate_succ, sens]
    rw [ih]
    ext i j
    fin_cases i <;> fin_cases j <;> simp [diEnv, diBackup, Matrix.mul_apply, Matrix.vecMul, dotProduct, Fin.sum_univ_two] <;> ring

/-- The barrier conditions of a call at the state `g`: at the look-ahead time `t = k / 100`. -/
theorem di_safe (g : Fin 2 → F) (udes mu : Fin 1 → F) (s : F) :
    Safe diEnv diDyn diBackup diSafe ⟨1 / 2, g, udes, fun _ => 1, diPrm.ulim⟩ ⟨50, 1, 1 / 100, 100⟩ diSteps mu s ↔
      ∀ k : ℕ, k < 50 → (g 0 + g 1 - 3) + (k : F) / 100 * (g 1 + (udes 0 + mu 0)) - 3 / 10 * ((k : F) / 100) * ((k : F) / 100 - 1 / 100) ≤ s ∧
        udes 0 + mu 0 + g 1 - 3 / 2 - 3 / 5 * ((k : F) / 100) ≤ s := by
  have hb : ∀ k, barrier diDyn diSafe 1 g udes (diSteps k).sum (march diEnv diDyn diBackup (diSteps k) 0 g)
      (sens diEnv diDyn diBackup (diSteps k) 0 g 1) mu (0 : Fin 2) = -((g 0 + g 1 - 3) + (k : F) / 100 * (g 1 + (udes 0 + mu 0))
        - 3 / 10 * ((k : F) / 100) * ((k : F) / 100 - 1 / 100)) ∧
      barrier diDyn diSafe 1 g udes (diSteps k).sum (march diEnv diDyn diBackup (diSteps k) 0 g)
      (sens diEnv diDyn diBackup (diSteps k) 0 g 1) mu (1 : Fin 2) = -(udes 0 + mu 0 + g 1 - 3 / 2 - 3 / 5 * ((k : F) / 100)) := by
    intro k
    rw [diSteps, di_march, di_sens, Matrix.mul_one]
    constructor
    · simp [barrier, diSafe, diDyn, Matrix.mulVec, dotProduct, Fin.sum_univ_two]
      ring
    · simp [barrier, diSafe, diDyn, Matrix.mulVec, dotProduct, Fin.sum_univ_two]
      ring
  constructor
  · intro h k hk
    have h0 := h k hk (0 : Fin 2)
    have h1 := h k hk (1 : Fin 2)
    dsimp only at h0 h1
    rw [(hb k).1] at h0
    rw [(hb k).2] at h1
    exact ⟨by linarith, by linarith⟩
  · intro h k hk j
    have hj : j = (0 : Fin 2) ∨ j = (1 : Fin 2) := by
      have : ∀ j : Fin 2, j = 0 ∨ j = 1 := by decide
      exact this j
    rcases hj with rfl | rfl
    · change 0 ≤ barrier diDyn diSafe 1 g udes (diSteps k).sum (march diEnv diDyn diBackup (diSteps k) 0 g)
        (sens diEnv diDyn diBackup (diSteps k) 0 g 1) mu (0 : Fin 2) + s
      rw [(hb k).1]
      linarith [(h k hk).1]
    · change 0 ≤ barrier diDyn diSafe 1 g udes (diSteps k).sum (march diEnv diDyn diBackup (diSteps k) 0 g)
        (sens diEnv diDyn diBackup (diSteps k) 0 g 1) mu (1 : Fin 2) + s
      rw [(hb k).2]
      linarith [(h k hk).2]

theorem di_bounds (u : Fin 1 → F) : InBounds diEnv (diPrm.ulim : Bounds (Fin 1 → F) F 1) u ↔ -1 ≤ u 0 ∧ u 0 ≤ 1 := by
  unfold InBounds InPoly
  constructor
  · intro h
    have := h (0 : Fin 1)
    simpa [diPrm, diEnv, lower, upper, Matrix.mulVec, dotProduct] using this
  · intro h i
    have : i = (0 : Fin 1) := Subsingleton.elim (α := Fin 1) _ _
    subst this
    simpa [diPrm, diEnv, lower, upper, Matrix.mulVec, dotProduct] using h

/-- The step of the example is exact: a constant acceleration for the time `dt`. -/
theorem di_step (u : Fin 1 → F) (dt : F) (g : Fin 2 → F) : diStep u dt g = ![g 0 + dt * g 1 + dt ^ 2 / 2 * u 0, g 1 + dt * u 0] := by
  funext i
  fin_cases i
  · simp [diStep, diDyn, Matrix.vecHead, Matrix.vecTail]; ring
  · simp [diStep, diDyn, Matrix.vecHead, Matrix.vecTail]; ring

/-- What an optimal call of the example's filter with the desired input 1 returns at the state `g`. -/
theorem di_call [Archimedean F] (solver : Solver F) (hex : Exact solver) (fuel : ℕ)
    (cs : List (Call (Fin 2 → F) (Fin 1 → F) F 2)) (s s' : Filter (Fin 2 → F) (Fin 1 → F) F 2 1)
    (hrun : Filter.run diEnv solver fuel cs (Filter.new diDyn diPrm) = some s) (g : Fin 2 → F) (u : Fin 1 → F)
    (hc : s.call diEnv solver fuel ⟨g, fun _ => 1, diSafe, diBackup⟩ = some (s', u, .optimal)) :
    (-1 ≤ u 0 ∧ u 0 ≤ 1) ∧ ∃ sl, 0 ≤ sl ∧
      (∀ k : ℕ, k < 50 → (g 0 + g 1 - 3) + (k : F) / 100 * (g 1 + u 0) - 3 / 10 * ((k : F) / 100) * ((k : F) / 100 - 1 / 100) ≤ sl ∧
        u 0 + g 1 - 3 / 2 - 3 / 5 * ((k : F) / 100) ≤ sl) ∧
      ∀ w sl' : F, -1 ≤ w → w ≤ 1 → 0 ≤ sl' →
        (∀ k : ℕ, k < 50 → (g 0 + g 1 - 3) + (k : F) / 100 * (g 1 + w) - 3 / 10 * ((k : F) / 100) * ((k : F) / 100 - 1 / 100) ≤ sl' ∧
          w + g 1 - 3 / 2 - 3 / 5 * ((k : F) / 100) ≤ sl') → (u 0 - 1) ^ 2 + 100 * sl ^ 2 ≤ (w - 1) ^ 2 + 100 * sl' ^ 2 := by
  obtain ⟨h1, sl, h2, h3, h4⟩ := asif_safe diEnv diEnv_flat solver hex fuel diDyn diPrm cs s s' hrun ⟨g, fun _ => 1, diSafe, diBackup⟩ u hc
    diSteps diSteps_schedule
  have hS := fun mu s => di_safe g (fun _ => (1 : F)) mu s
  refine ⟨(di_bounds u).1 h1, sl, h2, ?_, ?_⟩
  · have := (hS _ _).1 h3
    simpa using this
  · intro w sl' w1 w2 w3 w4
    have := h4 (fun _ => w) sl' ((di_bounds _).2 ⟨w1, w2⟩) w3 ((hS _ _).2 (by simpa using w4))
    simpa [diPrm] using this

/-- At rest on the boundary of the safe set the input 0, which keeps it there, satisfies all barrier conditions without slack. -/
theorem di_rest_safe : Safe diEnv diDyn diBackup diSafe ⟨1 / 2, ![3, 0], fun _ => (1 : F), fun _ => 1, diPrm.ulim⟩ ⟨50, 1, 1 / 100, 100⟩ diSteps
    (fun _ => -1) 0 ∧ InBounds diEnv (diPrm.ulim : Bounds (Fin 1 → F) F 1) (fun _ => 1 + -1) ∧ diStep (fun _ => 1 + -1) (1 / 20) ![3, 0] = ![(3 : F), 0] := by
  refine ⟨(di_safe _ _ _ _).2 fun k hk => ?_, (di_bounds _).2 (by norm_num), ?_⟩
  · interval_cases k <;> norm_num
  · rw [di_step]
    funext i
    fin_cases i <;> norm_num

/-- **C108, the example leaves the safe set.** At rest on the boundary of the safe set (`x = 3`, `v = 0`) and with the desired input 1, the filter
of the example returns the input 0.1783, after any history and with every exact solver, so the position exceeds the limit after the next step. -/
theorem di_filter_accelerates [Archimedean F] (solver : Solver F) (hex : Exact solver) (fuel : ℕ)
    (cs : List (Call (Fin 2 → F) (Fin 1 → F) F 2)) (s s' : Filter (Fin 2 → F) (Fin 1 → F) F 2 1)
    (hrun : Filter.run diEnv solver fuel cs (Filter.new diDyn diPrm) = some s) (u : Fin 1 → F)
    (hc : s.call diEnv solver fuel ⟨![3, 0], fun _ => 1, diSafe, diBackup⟩ = some (s', u, .optimal)) :
    u 0 = 1783 / 10000 ∧ diStep u (1 / 20) ![3, 0] 0 = 3 + 1783 / 8000000 := by
  obtain ⟨-, sl, h1, h2, h3⟩ := di_call solver hex fuel cs s s' hrun ![3, 0] u hc
  have h4 := h3 (1783 / 10000) (2739 / 100000) (by norm_num) (by norm_num) (by norm_num) (fun k hk => by
    interval_cases k <;> norm_num)
  have h5 := (h2 30 (by norm_num)).1
  norm_num at h5
  have h6 : u 0 = 1783 / 10000 := by
    have h7 : (u 0 - 1783 / 10000) ^ 2 ≤ 0 := by nlinarith [sq_nonneg (sl - 2739 / 100000)]
    have h8 := pow_eq_zero_iff (two_ne_zero) |>.1 (le_antisymm h7 (sq_nonneg _))
    linarith
  refine ⟨h6, ?_⟩
  rw [di_step, h6]
  norm_num

/-- On the wrong side of the boundary and moving away from it, the filter does not brake: state and speed after the next step. -/
theorem di_drifts [Archimedean F] (solver : Solver F) (hex : Exact solver) (fuel : ℕ)
    (cs : List (Call (Fin 2 → F) (Fin 1 → F) F 2)) (s s' : Filter (Fin 2 → F) (Fin 1 → F) F 2 1)
    (hrun : Filter.run diEnv solver fuel cs (Filter.new diDyn diPrm) = some s) (g : Fin 2 → F) (h0 : 3 ≤ g 0) (h1 : 0 ≤ g 1) (h2 : g 1 ≤ 1)
    (u : Fin 1 → F) (hc : s.call diEnv solver fuel ⟨g, fun _ => 1, diSafe, diBackup⟩ = some (s', u, .optimal)) :
    g 0 ≤ diStep u (1 / 20) g 0 ∧ 0 ≤ diStep u (1 / 20) g 1 ∧ diStep u (1 / 20) g 1 ≤ 1 := by
  obtain ⟨⟨a1, a2⟩, sl, h3, h4, h5⟩ := di_call solver hex fuel cs s s' hrun g u hc
  have h6 := (h4 0 (by norm_num)).1
  norm_num at h6
  have h7 := h5 (-g 1) (g 0 + g 1 - 3) (by linarith) (by linarith) (by linarith) (fun k hk => by
    constructor
    · rcases Nat.eq_zero_or_pos k with rfl | hk
      · norm_num
      · have : (1 : F) ≤ k := by exact_mod_cast hk
        have : 0 ≤ 3 / 10 * ((k : F) / 100) * ((k : F) / 100 - 1 / 100) := mul_nonneg (by positivity) (by linarith)
        linarith
    · have : (0 : F) ≤ (k : F) / 100 := by positivity
      linarith)
  have lowu : -g 1 ≤ u 0 := by
    by_contra hlt
    push Not at hlt
    nlinarith
  have upu : g 1 + 1 / 20 * u 0 ≤ 1 := by
    by_contra hgt
    push Not at hgt
    have h8 := (h4 30 (by norm_num)).1
    norm_num at h8
    nlinarith
  rw [di_step]
  refine ⟨?_, ?_, ?_⟩
  · simp; nlinarith
  · simp; linarith
  · simp; linarith

theorem di_run_snoc (solver : Solver F) (fuel : ℕ) (cs : List (Call (Fin 2 → F) (Fin 1 → F) F 2)) (c : Call (Fin 2 → F) (Fin 1 → F) F 2)
    (s0 s s' : Filter (Fin 2 → F) (Fin 1 → F) F 2 1) (u : Fin 1 → F) (st : Status) (hrun : Filter.run diEnv solver fuel cs s0 = some s)
    (hc : s.call diEnv solver fuel c = some (s', u, st)) : Filter.run diEnv solver fuel (cs ++ [c]) s0 = some s' := by
  induction cs generalizing s0 with
  | nil =>
    obtain rfl := Option.some.inj hrun
    rw [List.nil_append, Filter.run, hc]
    rfl
  | cons a l ih =>
    rw [Filter.run, Option.bind_eq_some_iff] at hrun
    obtain ⟨r, e1, e2⟩ := hrun
    rw [List.cons_append, Filter.run, e1, Option.bind_some]
    exact ih r.1 e2

/-- From a state outside, moving outwards slowly, the loop never returns. -/
theorem di_loop_outside [Archimedean F] (solver : Solver F) (hex : Exact solver) (fuel n : ℕ)
    (cs : List (Call (Fin 2 → F) (Fin 1 → F) F 2)) (s : Filter (Fin 2 → F) (Fin 1 → F) F 2 1)
    (hrun : Filter.run diEnv solver fuel cs (Filter.new diDyn diPrm) = some s) (g : Fin 2 → F) (h0 : 3 ≤ g 0) (h1 : 0 ≤ g 1) (h2 : g 1 ≤ 1)
    (l : List ((Fin 2 → F) × Status)) (hl : diLoop solver fuel (fun _ => 1) n (s, g) = some l) (ho : ∀ p ∈ l, p.2 = .optimal) :
    ∀ p ∈ l, g 0 ≤ p.1 0 ∧ 0 ≤ p.1 1 ∧ p.1 1 ≤ 1 := by
  induction n generalizing cs s g l with
  | zero =>
    obtain rfl := Option.some.inj hl
    simp
  | succ n ih =>
    rw [diLoop, Option.bind_eq_some_iff] at hl
    obtain ⟨⟨⟨s1, g1⟩, u, st⟩, e1, e2⟩ := hl
    rw [Option.map_eq_some_iff] at e2
    obtain ⟨l', e3, rfl⟩ := e2
    rw [diTurn, Option.map_eq_some_iff] at e1
    obtain ⟨⟨s2, u2, st2⟩, e4, e5⟩ := e1
    simp only [Prod.mk.injEq] at e5
    obtain ⟨⟨rfl, rfl⟩, rfl, rfl⟩ := e5
    obtain rfl : st2 = .optimal := ho _ List.mem_cons_self
    obtain ⟨k1, k2, k3⟩ := di_drifts solver hex fuel cs s s2 hrun g h0 h1 h2 u2 e4
    intro p hp
    rcases List.mem_cons.1 hp with rfl | hp
    · exact ⟨k1, k2, k3⟩
    · obtain ⟨q1, q2⟩ := ih (cs ++ [_]) s2 (di_run_snoc solver fuel cs _ _ s s2 u2 _ hrun e4) _ (h0.trans k1) k2 k3 l' e3
        (fun p hp => ho p (List.mem_cons_of_mem _ hp)) p hp
      exact ⟨k1.trans q1, q2⟩

/-- **C108, the closed loop.** The loop of the example, started at rest on the boundary of the safe set with the desired input 1: after every
step, as long as the solver reports (exact) optimal results, the position is beyond the limit, for ever. -/
theorem di_loop_leaves [Archimedean F] (solver : Solver F) (hex : Exact solver) (fuel n : ℕ) (l : List ((Fin 2 → F) × Status))
    (hl : diLoop solver fuel (fun _ => 1) n (Filter.new diDyn diPrm, ![3, 0]) = some l) (ho : ∀ p ∈ l, p.2 = .optimal) :
    ∀ p ∈ l, diSafe.h 0 p.1 (0 : Fin 2) ≤ -(1783 / 8000000) := by
  cases n with
  | zero =>
    obtain rfl := Option.some.inj hl
    simp
  | succ n =>
    rw [diLoop, Option.bind_eq_some_iff] at hl
    obtain ⟨⟨⟨s1, g1⟩, u, st⟩, e1, e2⟩ := hl
    rw [Option.map_eq_some_iff] at e2
    obtain ⟨l', e3, rfl⟩ := e2
    rw [diTurn, Option.map_eq_some_iff] at e1
    obtain ⟨⟨s2, u2, st2⟩, e4, e5⟩ := e1
    simp only [Prod.mk.injEq] at e5
    obtain ⟨⟨rfl, rfl⟩, rfl, rfl⟩ := e5
    obtain rfl : st2 = .optimal := ho _ List.mem_cons_self
    obtain ⟨k1, k2⟩ := di_filter_accelerates solver hex fuel [] _ s2 rfl u2 e4
    have k3 : diStep u2 (1 / 20) ![(3 : F), 0] 1 = 1783 / 200000 := by
      rw [di_step, k1]
      norm_num
    intro p hp
    have key : 3 + 1783 / 8000000 ≤ p.1 0 := by
      rcases List.mem_cons.1 hp with rfl | hp
      · exact k2.ge
      · rw [← k2]
        exact (di_loop_outside solver hex fuel n [_] s2 (di_run_snoc solver fuel [] _ _ _ s2 u2 _ rfl e4) _ (by rw [k2]; norm_num)
          (by rw [k3]; norm_num) (by rw [k3]; norm_num) l' e3 (fun p hp => ho p (List.mem_cons_of_mem _ hp)) p hp).1
    have : diSafe.h 0 p.1 (0 : Fin 2) = 3 - p.1 0 := rfl
    rw [this]
    linarith

/-- A lower bound for the input: as long as the cost of violating each condition at the input `w`, to first order, is at most the gain from moving
towards the desired input, the filter returns at least `w`. -/
theorem di_lower [Archimedean F] (solver : Solver F) (hex : Exact solver) (fuel : ℕ)
    (cs : List (Call (Fin 2 → F) (Fin 1 → F) F 2)) (s s' : Filter (Fin 2 → F) (Fin 1 → F) F 2 1)
    (hrun : Filter.run diEnv solver fuel cs (Filter.new diDyn diPrm) = some s) (g : Fin 2 → F) (u : Fin 1 → F)
    (hc : s.call diEnv solver fuel ⟨g, fun _ => 1, diSafe, diBackup⟩ = some (s', u, .optimal)) (w : F) (w1 : -1 ≤ w) (w2 : w ≤ 1)
    (hw : ∀ k : ℕ, k < 50 → (k : F) * ((g 0 + g 1 - 3) + (k : F) / 100 * (g 1 + w) - 3 / 10 * ((k : F) / 100) * ((k : F) / 100 - 1 / 100)) ≤ 1 - w)
    (hw' : 100 * (w + g 1 - 3 / 2) ≤ 1 - w) : w ≤ u 0 := by
  obtain ⟨-, sl, h3, h4, h5⟩ := di_call solver hex fuel cs s s' hrun g u hc
  by_contra hlt
  push Not at hlt
  obtain ⟨k, hk, hmax⟩ := Finset.exists_max_image (Finset.range 50)
    (fun k : ℕ => (g 0 + g 1 - 3) + (k : F) / 100 * (g 1 + w) - 3 / 10 * ((k : F) / 100) * ((k : F) / 100 - 1 / 100)) ⟨0, by simp⟩
  simp only [Finset.mem_range] at hk hmax
  have hr2 : ∀ k : ℕ, w + g 1 - 3 / 2 - 3 / 5 * ((k : F) / 100) ≤ w + g 1 - 3 / 2 := fun k => by
    have : (0 : F) ≤ (k : F) / 100 := by positivity
    linarith
  set R := (g 0 + g 1 - 3) + (k : F) / 100 * (g 1 + w) - 3 / 10 * ((k : F) / 100) * ((k : F) / 100 - 1 / 100) with hR
  have hk0 : (0 : F) ≤ k := by positivity
  have e1 := h4 k hk
  have e2 := (h4 0 (by norm_num)).2
  have e3 := hw k hk
  rw [← hR] at e3
  norm_num at e2
  have c := fun sl' h0 h1 h2 => h5 w sl' w1 w2 h0 (fun j hj => ⟨(hmax j hj).trans h1, (hr2 j).trans h2⟩)
  have key : ∀ a sw : F, 0 ≤ a → 0 ≤ sw → sw - a * (w - u 0) ≤ sl → 100 * a * sw ≤ 1 - w →
      (u 0 - 1) ^ 2 + 100 * sl ^ 2 ≤ (w - 1) ^ 2 + 100 * sw ^ 2 → False := by
    intro a sw ha hs h6 h7 h8
    have h9 : 0 < w - u 0 := by linarith
    have h10 : sw ^ 2 - sl ^ 2 ≤ 2 * sw * (sw - sl) := by nlinarith [sq_nonneg (sw - sl)]
    have h11 : 2 * sw * (sw - sl) ≤ 2 * sw * (a * (w - u 0)) := mul_le_mul_of_nonneg_left (by linarith) (by linarith)
    have h12 : 100 * a * sw * (w - u 0) ≤ (1 - w) * (w - u 0) := mul_le_mul_of_nonneg_right h7 h9.le
    nlinarith [mul_pos h9 h9]
  rcases le_total R (w + g 1 - 3 / 2) with h6 | h6
  · rcases le_total (w + g 1 - 3 / 2) 0 with h7 | h7
    · exact key 0 0 le_rfl le_rfl (by linarith) (by linarith) (c 0 le_rfl (h6.trans h7) h7)
    · exact key 1 _ zero_le_one h7 (by linarith) (by linarith) (c _ h7 h6 le_rfl)
  · rcases le_total R 0 with h7 | h7
    · exact key 0 0 le_rfl le_rfl (by linarith) (by linarith) (c 0 le_rfl h7 (h6.trans h7))
    · refine key ((k : F) / 100) R (by positivity) h7 ?_ (by linarith) (c R h7 le_rfl h6)
      have := e1.1
      rw [hR]
      linarith

/-- Inside the safe set and moving towards the limit, the filter does not brake enough: the speed stays positive and the position advances. -/
theorem di_advances [Archimedean F] (solver : Solver F) (hex : Exact solver) (fuel : ℕ)
    (cs : List (Call (Fin 2 → F) (Fin 1 → F) F 2)) (s s' : Filter (Fin 2 → F) (Fin 1 → F) F 2 1)
    (hrun : Filter.run diEnv solver fuel cs (Filter.new diDyn diPrm) = some s) (g : Fin 2 → F) (h0 : g 0 ≤ 3) (h1 : 1 / 50 ≤ g 1)
    (u : Fin 1 → F) (hc : s.call diEnv solver fuel ⟨g, fun _ => 1, diSafe, diBackup⟩ = some (s', u, .optimal)) :
    g 0 + 1 / 1200 ≤ diStep u (1 / 20) g 0 ∧ 1 / 50 ≤ diStep u (1 / 20) g 1 := by
  have hu := (di_call solver hex fuel cs s s' hrun g u hc).1.1
  have low := di_lower solver hex fuel cs s s' hrun g u hc
  rw [di_step]
  simp only [Matrix.cons_val_zero, Matrix.cons_val_one]
  rcases le_total (g 1) (3 / 100) with h2 | h2
  · have := low 0 (by norm_num) (by norm_num) (fun k hk => by
      have hk0 : (0 : F) ≤ k := by positivity
      have e1 : (k : F) * ((g 0 + g 1 - 3) + (k : F) / 100 * (g 1 + 0) - 3 / 10 * ((k : F) / 100) * ((k : F) / 100 - 1 / 100)) ≤
          (k : F) * (3 / 100 + (k : F) / 100 * (3 / 100) - 3 / 10 * ((k : F) / 100) * ((k : F) / 100 - 1 / 100)) := by
        refine mul_le_mul_of_nonneg_left ?_ hk0
        have : (k : F) / 100 * (g 1 + 0) ≤ (k : F) / 100 * (3 / 100) := mul_le_mul_of_nonneg_left (by linarith) (by positivity)
        linarith
      refine e1.trans ?_
      clear e1 hk0
      interval_cases k <;> norm_num) (by linarith)
    constructor <;> linarith
  · rcases le_total (g 1) (1 / 10) with h3 | h3
    · have := low (-4 * g 1) (by linarith) (by linarith) (fun k hk => by
        have hk0 : (0 : F) ≤ k := by positivity
        have e1 : 0 ≤ (k : F) ^ 2 * ((k : F) - 1) := by
          rcases Nat.eq_zero_or_pos k with rfl | hk'
          · norm_num
          · have : (1 : F) ≤ k := by exact_mod_cast hk'
            exact mul_nonneg (sq_nonneg _) (by linarith)
        have e2 : 0 ≤ (k : F) * (3 - g 0) := mul_nonneg hk0 (by linarith)
        have e3 : 0 ≤ g 1 * ((k : F) - 50 / 3) ^ 2 := mul_nonneg (by linarith) (sq_nonneg _)
        linarith) (by linarith)
      constructor <;> linarith
    · constructor <;> linarith

/-- **C108, the example as written.** From every state inside the limit with a speed of at least 1/50, in particular from the initial state of the
example (position -5, speed 1), the closed loop exceeds the position limit: it takes at most `1200 * (3 - position)` turns. -/
theorem di_loop_exits [Archimedean F] (solver : Solver F) (hex : Exact solver) (fuel n : ℕ)
    (cs : List (Call (Fin 2 → F) (Fin 1 → F) F 2)) (s : Filter (Fin 2 → F) (Fin 1 → F) F 2 1)
    (hrun : Filter.run diEnv solver fuel cs (Filter.new diDyn diPrm) = some s) (g : Fin 2 → F) (h0 : g 0 ≤ 3) (h1 : 1 / 50 ≤ g 1)
    (hn : 1200 * (3 - g 0) < n)
    (l : List ((Fin 2 → F) × Status)) (hl : diLoop solver fuel (fun _ => 1) n (s, g) = some l) (ho : ∀ p ∈ l, p.2 = .optimal) :
    ∃ p ∈ l, diSafe.h 0 p.1 (0 : Fin 2) < 0 := by
  induction n generalizing cs s g l with
  | zero =>
    push_cast at hn
    linarith
  | succ n ih =>
    rw [diLoop, Option.bind_eq_some_iff] at hl
    obtain ⟨⟨⟨s1, g1⟩, u, st⟩, e1, e2⟩ := hl
    rw [Option.map_eq_some_iff] at e2
    obtain ⟨l', e3, rfl⟩ := e2
    rw [diTurn, Option.map_eq_some_iff] at e1
    obtain ⟨⟨s2, u2, st2⟩, e4, e5⟩ := e1
    simp only [Prod.mk.injEq] at e5
    obtain ⟨⟨rfl, rfl⟩, rfl, rfl⟩ := e5
    obtain rfl : st2 = .optimal := ho _ List.mem_cons_self
    obtain ⟨k1, k2⟩ := di_advances solver hex fuel cs s s2 hrun g h0 h1 u2 e4
    rcases le_or_gt (diStep u2 (1 / 20) g 0) 3 with h3 | h3
    · obtain ⟨p, hp, h4⟩ := ih (cs ++ [_]) s2 (di_run_snoc solver fuel cs _ _ s s2 u2 _ hrun e4) _ h3 k2 (by push_cast at hn; linarith) l' e3
        (fun p hp => ho p (List.mem_cons_of_mem _ hp))
      exact ⟨p, List.mem_cons_of_mem _ hp, h4⟩
    · refine ⟨_, List.mem_cons_self, ?_⟩
      change 3 - diStep u2 (1 / 20) g 0 < 0
      linarith

end

/-! ## An exact solver -/

open Classical in
/-- A solver that returns a minimiser if there is one. -/
noncomputable def best : Solver ℝ := fun qp _ =>
  if h : ∃ v : Fin qp.q.size → ℝ, Minimiser (qp.pbm qp.q.size qp.l.size) v then
    some ⟨.optimal, ⟨qp.q.size, fun i => if hi : i < qp.q.size then h.choose ⟨i, hi⟩ else 0⟩, ⟨qp.l.size, fun _ => 0⟩⟩
  else some ⟨.unknown, ⟨qp.q.size, fun _ => 0⟩, ⟨qp.l.size, fun _ => 0⟩⟩

theorem best_exact : Exact best := by
  intro qp warm r h hc
  unfold best at h
  split_ifs at h with hm
  · cases h
    refine ⟨rfl, ?_⟩
    have : (fun i : Fin qp.q.size => if hi : (i : ℕ) < qp.q.size then hm.choose ⟨i, hi⟩ else 0) = hm.choose := by
      funext i
      rw [dif_pos i.2]
    rw [this]
    exact hm.choose_spec
  · cases h; cases hc

/-- The loop of the example runs, with optimal results throughout, for any number of turns. -/
theorem di_loop_runs (n : ℕ) (cs : List (Call (Fin 2 → ℝ) (Fin 1 → ℝ) ℝ 2)) (s : Filter (Fin 2 → ℝ) (Fin 1 → ℝ) ℝ 2 1)
    (hrun : Filter.run diEnv best 51 cs (Filter.new diDyn diPrm) = some s) (g : Fin 2 → ℝ) :
    ∃ l, diLoop best 51 (fun _ => 1) n (s, g) = some l ∧ l.length = n ∧ ∀ p ∈ l, p.2 = .optimal := by
  induction n generalizing cs s g with
  | zero => exact ⟨[], rfl, rfl, by simp⟩
  | succ n ih =>
    obtain ⟨s', u, hc⟩ : ∃ s' u, s.call diEnv best 51 ⟨g, fun _ => 1, diSafe, diBackup⟩ = some (s', u, .optimal) := by
      have h1 := asif_call_program diEnv best 51 diDyn diPrm cs s hrun ⟨g, fun _ => 1, diSafe, diBackup⟩ rfl
      have hup : toQP diEnv diDyn diBackup diSafe ⟨1 / 2, g, fun _ => (1 : ℝ), fun _ => 1, diPrm.ulim⟩ ⟨50, 1, 1 / 100, 100⟩ 51 =
          some (built diEnv diDyn diBackup diSafe ⟨1 / 2, g, fun _ => (1 : ℝ), fun _ => 1, diPrm.ulim⟩ ⟨50, 1, 1 / 100, 100⟩ diSteps) :=
        update_eq _ _ _ _ _ _ _ diSteps diSteps_schedule (fun k hk => by
          have : k ≤ 50 := hk
          simp [diSteps]
          omega) _ (allocate_clean _ _ _ _)
      obtain ⟨v, hv⟩ := asif_feasible diEnv diDyn diBackup diSafe _ _ 51 _ hup (fun _ => 1) ((di_bounds _).2 (by norm_num))
      have hmin := QP.qp_solvable (built_psd diEnv diDyn diBackup diSafe ⟨1 / 2, g, fun _ => (1 : ℝ), fun _ => 1, diPrm.ulim⟩ ⟨50, 1, 1 / 100, 100⟩
        (fun _ => zero_le_one) (by norm_num) diSteps _) hv (b := 0) (fun x _ => by
          rw [((asif_program diEnv diDyn diBackup diSafe _ _ diSteps diSteps_schedule 51 _ hup).2 x).2]
          have : 0 ≤ ∑ i, (1 : ℝ) * corr x i ^ 2 := Finset.sum_nonneg fun i _ => by positivity
          positivity)
      have hb : ∀ w, ∃ r, best (built diEnv diDyn diBackup diSafe ⟨1 / 2, g, fun _ => (1 : ℝ), fun _ => 1, diPrm.ulim⟩ ⟨50, 1, 1 / 100, 100⟩ diSteps) w
          = some ⟨.optimal, ⟨2, r⟩, ⟨102, fun _ => 0⟩⟩ := fun w => by
        unfold best
        split_ifs with h
        · exact ⟨_, rfl⟩
        · exact absurd hmin h
      obtain ⟨r, hr⟩ := hb s.warm
      have h2 : toQP diEnv diDyn diBackup diSafe ⟨(diPrm : FPrm (Fin 1 → ℝ) ℝ 1).T, g, fun _ => (1 : ℝ), diPrm.W, diPrm.ulim⟩ diPrm.asif 51 = _ := hup
      rw [h1, h2, Option.bind_some, hr, Option.bind_some, if_pos (by simp)]
      exact ⟨_, _, rfl⟩
    obtain ⟨l, h1, h2, h3⟩ := ih (cs ++ [_]) s' (di_run_snoc best 51 cs _ _ s s' u _ hrun hc) (diStep u (1 / 20) g)
    refine ⟨(diStep u (1 / 20) g, .optimal) :: l, ?_, by simp [h2], ?_⟩
    · rw [diLoop, diTurn, hc, Option.map_some, Option.bind_some, h1]
      rfl
    · intro p hp
      rcases List.mem_cons.1 hp with rfl | hp
      · rfl
      · exact h3 p hp

/-- The 200 turns of the example, started at rest on the boundary: all states after the first are unsafe. -/
example : ∃ l, diLoop best 51 (fun _ => 1) 200 (Filter.new diDyn diPrm, ![3, 0]) = some l ∧ l.length = 200 ∧
    ∀ p ∈ l, diSafe.h 0 p.1 (0 : Fin 2) < 0 := by
  obtain ⟨l, h1, h2, h3⟩ := di_loop_runs 200 [] _ rfl ![3, 0]
  exact ⟨l, h1, h2, fun p hp => (di_loop_leaves best best_exact 51 200 l h1 h3 p hp).trans_lt (by norm_num)⟩

/-- The example as written, from its initial state. -/
example : ∃ l, diLoop best 51 (fun _ => 1) 9601 (Filter.new diDyn diPrm, ![-5, 1]) = some l ∧ ∃ p ∈ l, diSafe.h 0 p.1 (0 : Fin 2) < 0 := by
  obtain ⟨l, h1, h2, h3⟩ := di_loop_runs 9601 [] _ rfl ![-5, 1]
  exact ⟨l, h1, di_loop_exits best best_exact 51 9601 [] _ rfl ![-5, 1] (by norm_num) (by norm_num) (by norm_num) l h1 h3⟩

/-- At rest on the boundary the filter returns an input that violates a barrier condition, although the input 0 satisfies all of them. -/
example : ∃ s' u mu, (Filter.new diDyn diPrm).call diEnv best 51 ⟨![3, 0], fun _ => 1, diSafe, diBackup⟩ = some (s', u, .optimal) ∧
    u = (fun _ => 1) + mu ∧
    ¬ Safe diEnv diDyn diBackup diSafe ⟨1 / 2, ![3, 0], fun _ => (1 : ℝ), fun _ => 1, diPrm.ulim⟩ ⟨50, 1, 1 / 100, 100⟩ diSteps mu 0 ∧
    Safe diEnv diDyn diBackup diSafe ⟨1 / 2, ![3, 0], fun _ => (1 : ℝ), fun _ => 1, diPrm.ulim⟩ ⟨50, 1, 1 / 100, 100⟩ diSteps (fun _ => -1) 0 := by
  obtain ⟨l, h1, h2, h3⟩ := di_loop_runs 1 [] _ rfl ![3, 0]
  rw [diLoop, Option.bind_eq_some_iff] at h1
  obtain ⟨⟨⟨s1, g1⟩, u, st⟩, e1, e2⟩ := h1
  rw [Option.map_eq_some_iff] at e2
  obtain ⟨l', e3, rfl⟩ := e2
  rw [diTurn, Option.map_eq_some_iff] at e1
  obtain ⟨⟨s2, u2, st2⟩, e4, e5⟩ := e1
  simp only [Prod.mk.injEq] at e5
  obtain ⟨⟨rfl, rfl⟩, rfl, rfl⟩ := e5
  obtain rfl : st2 = .optimal := h3 _ List.mem_cons_self
  obtain ⟨mu, m1, m2, -⟩ := asif_call_violates diEnv best best_exact 51 diDyn diPrm (by norm_num [diPrm]) (fun _ => by norm_num [diPrm]) [] _ s2 rfl
    ⟨![3, 0], fun _ => 1, diSafe, diBackup⟩ ((di_bounds _).2 (by norm_num)) u2 e4 diSteps diSteps_schedule
  refine ⟨s2, u2, mu, e4, m1, fun h => ?_, di_rest_safe.1⟩
  have := ((di_safe _ _ _ _).1 (m2.1 h) 30 (by norm_num)).1
  norm_num at this

end Verif.ASIF
