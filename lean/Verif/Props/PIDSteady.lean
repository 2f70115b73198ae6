import Verif.Spec.PIDSteady
import Verif.Props.PID
import Mathlib.Topology.Algebra.Order.Field
import Mathlib.Topology.Instances.Real.Lemmas
import Mathlib.Analysis.SpecificLimits.Basic
import Mathlib.Tactic.Linarith
import Mathlib.Tactic.NormNum

/-! # C146: no steady error unless the integral is at its limit -/

set_option linter.unusedSectionVars false

namespace Verif.PID

open PIDSpec

variable {T G F : Type*} {n : ℕ} [LinearOrder T] [Field F] [LinearOrder F] [IsStrictOrderedRing F]

theorem run_calls_succ (env : Env T G F n) (s : State T G F n) (c : ℕ → Sample T G F n) (j : ℕ) :
    run env s (calls c (j + 1)) = (call env (run env s (calls c j)) (c j).t (c j).x (c j).v).1 := by
  simp [run, calls, List.range_succ, step]

theorem run_calls_const (env : Env T G F n) (s : State T G F n) (c : ℕ → Sample T G F n) (j : ℕ) :
    (run env s (calls c j)).windup = s.windup ∧ (run env s (calls c j)).xdes = s.xdes := by
  induction j with
  | zero => exact ⟨rfl, rfl⟩
  | succ j ih => rw [run_calls_succ]; exact ih

/-- The integral from the second call on. -/
theorem run_calls_iErr (env : Env T G F n) (s : State T G F n) (c : ℕ → Sample T G F n) (j : ℕ) (h : (c j).t < (c (j + 1)).t) :
    (run env s (calls c (j + 2))).iErr = windupClamp s.windup (fun k => (run env s (calls c (j + 1))).iErr k
      + env.tminus (c (j + 1)).t (c j).t * env.rminus (s.xdes (c (j + 1)).t).1 (c (j + 1)).x k) := by
  have hc := run_calls_const env s c (j + 1)
  have ht : (run env s (calls c (j + 1))).tLast = some (c j).t := by rw [run_calls_succ]; rfl
  rw [run_calls_succ env s c (j + 1)]
  show integrate env (run env s (calls c (j + 1))) (c (j + 1)).t _ = _
  rw [integrate, ht]
  simp only [h, if_true, hc.1, hc.2]

/-- **C146** A call some time after the last one that leaves a component of the integral as it is has zero error there, or the
component is at a limit and the error pushes against it. -/
theorem pid_equilibrium (env : Env T G F n) (s : State T G F n) (tl t : T) (hl : s.tLast = some tl) (ht : tl < t)
    (hd : 0 < env.tminus t tl) (hb : ∀ b, s.windup = some b → 0 ≤ b) (x : G) (v : Vec n F) (k : Fin n) (hi : (call env s t x v).1.iErr k = s.iErr k) :
    env.rminus (s.xdes t).1 x k = 0 ∨ ∃ b, s.windup = some b ∧
      ((s.iErr k = b ∧ 0 < env.rminus (s.xdes t).1 x k) ∨ (s.iErr k = -b ∧ env.rminus (s.xdes t).1 x k < 0)) := by
  simp only [call, integrate, hl, ht, if_true] at hi
  set e := env.rminus (s.xdes t).1 x k with he
  rcases lt_trichotomy e 0 with h | h | h
  · right
    rcases hw : s.windup with _ | b
    · rw [hw] at hi
      simp only [windupClamp] at hi
      have := mul_neg_of_pos_of_neg hd h
      linarith
    · refine ⟨b, rfl, Or.inr ⟨?_, h⟩⟩
      rw [hw] at hi
      simp only [windupClamp] at hi
      have := mul_neg_of_pos_of_neg hd h
      rcases min_choice (max (s.iErr k + env.tminus t tl * e) (-b)) b with hm | hm
      · rcases max_choice (s.iErr k + env.tminus t tl * e) (-b) with hx | hx
        · rw [hm, hx] at hi; linarith
        · rw [hm, hx] at hi; exact hi.symm
      · have hb0 := hb b hw
        have h1 := min_le_left (max (s.iErr k + env.tminus t tl * e) (-b)) b
        rw [hm] at hi h1
        rcases le_max_iff.1 h1 with h2 | h2 <;> linarith
  · exact Or.inl h
  · right
    rcases hw : s.windup with _ | b
    · rw [hw] at hi
      simp only [windupClamp] at hi
      have := mul_pos hd h
      linarith
    · refine ⟨b, rfl, Or.inl ⟨?_, h⟩⟩
      rw [hw] at hi
      simp only [windupClamp] at hi
      have := mul_pos hd h
      rcases min_choice (max (s.iErr k + env.tminus t tl * e) (-b)) b with hm | hm
      · have := le_max_left (s.iErr k + env.tminus t tl * e) (-b)
        rw [hm] at hi; linarith
      · rw [hm] at hi; exact hi.symm

/-- **C146** With errors of at least `e0` in a component at every call, calls at least `d` apart, the component of the integral is
at the limit `b` after every number of calls `N + 1` with `N d e0 ≥ 2 b`. -/
theorem pid_saturates (env : Env T G F n) (s : State T G F n) (c : ℕ → Sample T G F n) {b d e0 : F} (hb : 0 ≤ b) (hd : 0 < d)
    (he0 : 0 < e0) (hw : s.windup = some b) (hs : Spaced env c d) (k : Fin n) (hi : -b ≤ s.iErr k)
    (he : ∀ j, e0 ≤ env.rminus (s.xdes (c j).t).1 (c j).x k) (N : ℕ) (hN : 2 * b ≤ N * (d * e0))
    (hib : s.iErr k ≤ b) :
    (run env s (calls c (N + 1))).iErr k = b := by
  have key : ∀ j : ℕ, min b (-b + j * (d * e0)) ≤ (run env s (calls c (j + 1))).iErr k ∧ (run env s (calls c (j + 1))).iErr k ≤ b := by
    intro j
    induction j with
    | zero =>
      have h1 : -b ≤ (run env s (calls c (0 + 1))).iErr k ∧ (run env s (calls c (0 + 1))).iErr k ≤ b := by
        rw [run_calls_succ]
        show -b ≤ integrate env s (c 0).t _ k ∧ integrate env s (c 0).t _ k ≤ b
        rw [integrate]
        rcases s.tLast with _ | tl
        · exact ⟨hi, hib⟩
        · show -b ≤ (if tl < (c 0).t then windupClamp s.windup _ else s.iErr) k ∧ (if tl < (c 0).t then windupClamp s.windup _ else s.iErr) k ≤ b
          split_ifs
          · rw [hw]
            exact ⟨le_min (le_max_right _ _) (by linarith), min_le_right _ _⟩
          · exact ⟨hi, hib⟩
      exact ⟨(min_le_right _ _).trans (by push_cast; linarith [h1.1]), h1.2⟩
    | succ j ih =>
      rw [run_calls_iErr env s c j (hs j).1, hw]
      simp only [windupClamp]
      refine ⟨?_, min_le_right _ _⟩
      have hstep : d * e0 ≤ env.tminus (c (j + 1)).t (c j).t * env.rminus (s.xdes (c (j + 1)).t).1 (c (j + 1)).x k :=
        mul_le_mul (hs j).2 (he (j + 1)) he0.le (hd.le.trans (hs j).2)
      have hpos := mul_pos hd he0
      refine le_min ?_ (min_le_left _ _)
      refine le_trans ?_ (le_max_left _ _)
      rcases le_total b (-b + j * (d * e0)) with h | h
      · rw [min_eq_left h] at ih
        exact (min_le_left _ _).trans (by linarith [ih.1])
      · rw [min_eq_right h] at ih
        refine (min_le_right _ _).trans ?_
        push_cast
        linarith [ih.1]
  have := key N
  rw [min_eq_left (by linarith)] at this
  exact le_antisymm this.2 this.1

/-- **C146** If a component of the integral converges to a value strictly inside the limit while the controller is called again
and again at times at least `d` apart, the error of that component tends to zero. -/
theorem pid_no_steady_error {T G : Type*} [LinearOrder T] {n : ℕ} (env : Env T G ℝ n) (s : State T G ℝ n)
    (c : ℕ → Sample T G ℝ n) {d : ℝ} (hd : 0 < d) (hs : Spaced env c d) (k : Fin n) (L : ℝ)
    (hL : Filter.Tendsto (fun j => (run env s (calls c j)).iErr k) Filter.atTop (nhds L)) (hin : ∀ b, s.windup = some b → |L| < b) :
    Filter.Tendsto (fun j => env.rminus (s.xdes (c j).t).1 (c j).x k) Filter.atTop (nhds 0) := by
  set i := fun j => (run env s (calls c j)).iErr k with hi
  have h1 : Filter.Tendsto (fun j => i (j + 1)) Filter.atTop (nhds L) := hL.comp (Filter.tendsto_add_atTop_nat 1)
  have h2 : Filter.Tendsto (fun j => i (j + 2)) Filter.atTop (nhds L) := hL.comp (Filter.tendsto_add_atTop_nat 2)
  have hdiff : Filter.Tendsto (fun j => |i (j + 2) - i (j + 1)| / d) Filter.atTop (nhds 0) := by
    have := ((h2.sub h1).abs).div_const d
    simpa using this
  have hev : ∀ᶠ j in Filter.atTop, i (j + 2) = i (j + 1)
      + env.tminus (c (j + 1)).t (c j).t * env.rminus (s.xdes (c (j + 1)).t).1 (c (j + 1)).x k := by
    rcases hw : s.windup with _ | b
    · refine Filter.Eventually.of_forall fun j => ?_
      show (run env s (calls c (j + 2))).iErr k = _
      rw [run_calls_iErr env s c j (hs j).1, hw]
      rfl
    · have hb := abs_lt.1 (hin b hw)
      filter_upwards [h2.eventually (lt_mem_nhds hb.1), h2.eventually (gt_mem_nhds hb.2)] with j ha hc
      have he : i (j + 2) = min (max (i (j + 1) + env.tminus (c (j + 1)).t (c j).t * env.rminus (s.xdes (c (j + 1)).t).1 (c (j + 1)).x k) (-b)) b := by
        show (run env s (calls c (j + 2))).iErr k = _
        rw [run_calls_iErr env s c j (hs j).1, hw]
        rfl
      rcases min_choice (max (i (j + 1) + env.tminus (c (j + 1)).t (c j).t * env.rminus (s.xdes (c (j + 1)).t).1 (c (j + 1)).x k) (-b)) b with hm | hm
      · rcases max_choice (i (j + 1) + env.tminus (c (j + 1)).t (c j).t * env.rminus (s.xdes (c (j + 1)).t).1 (c (j + 1)).x k) (-b) with hx | hx
        · rw [he, hm, hx]
        · rw [hm, hx] at he; exact absurd he ha.ne'
      · rw [hm] at he; exact absurd he hc.ne
  rw [← Filter.tendsto_add_atTop_iff_nat 1]
  refine (tendsto_zero_iff_abs_tendsto_zero _).2 (squeeze_zero' (Filter.Eventually.of_forall fun j => abs_nonneg _) ?_ hdiff)
  filter_upwards [hev] with j hj
  have hj' : env.tminus (c (j + 1)).t (c j).t * env.rminus (s.xdes (c (j + 1)).t).1 (c (j + 1)).x k = i (j + 2) - i (j + 1) := by linarith
  rw [le_div_iff₀ hd, ← hj', abs_mul, mul_comm]
  exact mul_le_mul_of_nonneg_right ((hs j).2.trans (le_abs_self _)) (abs_nonneg _)

/-! ## Concrete cases -/

/-- The real line, time in seconds. -/
def realLine : Env ℝ ℝ ℝ 1 := ⟨fun a b _ => a - b, fun a b => a - b, 0⟩

/-- One call per second at states `1, 1/2, 1/4, …`. -/
noncomputable def halving (j : ℕ) : Sample ℝ ℝ ℝ 1 := ⟨j, (1 / 2) ^ j, 0⟩

theorem halving_spaced : Spaced realLine halving 1 := by
  intro j
  constructor
  · show ((j : ℕ) : ℝ) < ((j + 1 : ℕ) : ℝ)
    exact_mod_cast Nat.lt_succ_self j
  · show (1 : ℝ) ≤ ((j + 1 : ℕ) : ℝ) - (j : ℝ)
    push_cast; linarith

theorem halving_iErr (j : ℕ) : (run realLine (init realLine (some 2)) (calls halving (j + 1))).iErr 0 = (1 / 2) ^ j - 1 := by
  induction j with
  | zero =>
    rw [run_calls_succ]
    show (0 : ℝ) = _
    norm_num
  | succ j ih =>
    rw [run_calls_iErr _ _ _ _ (halving_spaced j).1]
    show min (max ((run realLine (init realLine (some 2)) (calls halving (j + 1))).iErr 0 + (((j + 1 : ℕ) : ℝ) - (j : ℝ)) * (0 - (1 / 2) ^ (j + 1))) (-2)) 2 = _
    have h1 : (0 : ℝ) < (1 / 2) ^ j := by positivity
    have h2 : ((1 : ℝ) / 2) ^ j ≤ 1 := pow_le_one₀ (by norm_num) (by norm_num)
    rw [ih, pow_succ]
    push_cast
    rw [max_eq_left (by linarith), min_eq_left (by linarith)]
    ring

/-- Hypotheses and conclusion of `pid_no_steady_error`: the integral tends to -1, inside the limit 2. -/
theorem halving_steady : Filter.Tendsto (fun j => (run realLine (init realLine (some 2)) (calls halving j)).iErr 0) Filter.atTop (nhds (-1)) ∧
    Filter.Tendsto (fun j => realLine.rminus ((init realLine (some 2)).xdes (halving j).t).1 (halving j).x 0) Filter.atTop (nhds 0) := by
  have hL : Filter.Tendsto (fun j => (run realLine (init realLine (some 2)) (calls halving j)).iErr 0) Filter.atTop (nhds (-1)) := by
    rw [← Filter.tendsto_add_atTop_iff_nat 1]
    simp only [halving_iErr]
    have := (tendsto_pow_atTop_nhds_zero_of_lt_one (r := (1 / 2 : ℝ)) (by norm_num) (by norm_num)).sub_const 1
    simpa using this
  refine ⟨hL, pid_no_steady_error realLine _ halving one_pos halving_spaced 0 (-1) hL fun b hb => ?_⟩
  obtain rfl : (2 : ℝ) = b := by simpa [init] using hb
  norm_num

/-- A state stuck at -1: from the seventh call on the integral is at its limit 3. -/
theorem stuck_saturates (N : ℕ) (hN : 6 ≤ N) :
    (run realLine (init realLine (some 3)) (calls (fun j => ⟨j, -1, 0⟩) (N + 1))).iErr 0 = 3 := by
  refine pid_saturates realLine (init realLine (some 3)) (fun j => ⟨j, -1, 0⟩) (b := 3) (d := 1) (e0 := 1) (by norm_num) one_pos one_pos rfl (fun j => halving_spaced j) 0 ?_ (fun j => ?_) N ?_ ?_
  · show (-3 : ℝ) ≤ 0
    norm_num
  · show (1 : ℝ) ≤ 0 - -1
    norm_num
  · have : (6 : ℝ) ≤ N := by exact_mod_cast hN
    linarith
  · show (0 : ℝ) ≤ 3
    norm_num

end Verif.PID
