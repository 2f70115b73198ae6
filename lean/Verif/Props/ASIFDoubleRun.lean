import Verif.Props.ASIFDouble
import Verif.Props.ASIFAlways
import Verif.Props.ASIFLie
import Verif.Props.QPErrorBound
import Verif.Proofs.ASIFDoubleSim

/-!
# The run of examples/asif_doubleintegrator.cpp

C126: the program as written, from its initial state and with its 200 turns. The run with exact minimisers is calculated; that of the modelled solver is close to it when the
tolerances are small.
-/

set_option linter.unusedSectionVars false

namespace Verif.ASIF

open Verif.QPSpec Verif.ASIFSpec
open Verif.QP (Ext Status)
open Verif.MPC (Solves Verdict)

/-! ## Exact minimisers -/

section

variable {F : Type*} [Field F] [LinearOrder F] [IsStrictOrderedRing F]

/-- The filter of the example with an exact solver returns the ideal input. -/
theorem di_ideal [Archimedean F] (solver : Solver F) (hex : Exact solver) (fuel : ℕ)
    (cs : List (Call (Fin 2 → F) (Fin 1 → F) F 2)) (s s' : Filter (Fin 2 → F) (Fin 1 → F) F 2 1)
    (hrun : Filter.run diEnv solver fuel cs (Filter.new diDyn diPrm) = some s) (g : Fin 2 → F) (u : Fin 1 → F)
    (hc : s.call diEnv solver fuel ⟨g, fun _ => 1, diSafe, diBackup⟩ = some (s', u, .optimal)) : Ideal (g 0) (g 1) (u 0) := by
  obtain ⟨⟨h1, h2⟩, sl, h3, h4, h5⟩ := di_call solver hex fuel cs s s' hrun g u hc
  exact ⟨sl, ⟨h1, h2, h3, fun k hk => (h4 k hk).1, fun k hk => (h4 k hk).2⟩, fun w t h => h5 w t h.lo h.hi h.slack fun k hk => ⟨h.pos k hk, h.vel k hk⟩⟩

theorem di_next (u : Fin 1 → F) (g : Fin 2 → F) : diStep u (1 / 20) g = ![g 0 + g 1 / 20 + u 0 / 800, g 1 + u 0 / 20] := by
  rw [di_step]
  funext i
  fin_cases i
  · simp; ring
  · simp; ring

/-- **C126, the loop with exact minimisers.** As long as the solver reports Optimal, the states are those of the ideal run, after any calls. -/
theorem di_loop_ideal [Archimedean F] (solver : Solver F) (hex : Exact solver) (fuel n : ℕ)
    (cs : List (Call (Fin 2 → F) (Fin 1 → F) F 2)) (s : Filter (Fin 2 → F) (Fin 1 → F) F 2 1)
    (hrun : Filter.run diEnv solver fuel cs (Filter.new diDyn diPrm) = some s) (g : Fin 2 → F)
    (l : List ((Fin 2 → F) × Status)) (hl : diLoop solver fuel (fun _ => 1) n (s, g) = some l) (ho : ∀ p ∈ l, p.2 = .optimal) :
    l.length = n ∧ IdealRun g (l.map Prod.fst) := by
  induction n generalizing cs s g l with
  | zero =>
    obtain rfl := Option.some.inj hl
    exact ⟨rfl, trivial⟩
  | succ n ih =>
    rw [diLoop, Option.bind_eq_some_iff] at hl
    obtain ⟨⟨⟨s1, g1⟩, u, st⟩, e1, e2⟩ := hl
    rw [Option.map_eq_some_iff] at e2
    obtain ⟨l', e3, rfl⟩ := e2
    rw [diTurn, Option.map_eq_some_iff] at e1
    obtain ⟨⟨s2, u2, st2⟩, e4, e5⟩ := e1
    simp only [Prod.mk.injEq] at e5
    obtain ⟨⟨rfl, rfl⟩, rfl, rfl⟩ := e5
    obtain rfl : st2 = .optimal := ho _ List.mem_cons_self
    obtain ⟨k1, k2⟩ := ih (cs ++ [_]) s2 (di_run_snoc solver fuel cs _ _ s s2 u2 _ hrun e4) _ l' e3 (fun p hp => ho p (List.mem_cons_of_mem _ hp))
    exact ⟨by simp [k1], ⟨u2 0, di_ideal solver hex fuel cs s s2 hrun g u2 e4, di_next u2 g⟩, k2⟩

/-- There is one ideal run of each length. -/
theorem idealRun_unique {g : Fin 2 → F} {l l' : List (Fin 2 → F)} (h : IdealRun g l) (h' : IdealRun g l') (hl : l.length = l'.length) : l = l' := by
  induction l generalizing g l' with
  | nil => exact (List.length_eq_zero_iff.1 hl.symm).symm
  | cons a l ih =>
    cases l' with
    | nil => cases hl
    | cons b l' =>
      obtain ⟨⟨u, h1, rfl⟩, h2⟩ := h
      obtain ⟨⟨u', h1', rfl⟩, h2'⟩ := h'
      obtain rfl := ideal_unique h1 h1'
      rw [ih h2 h2' (by simpa using hl)]

/-- What the run of the example shows: after 81 turns the speed exceeds its limit 3 / 2, after 148 turns and from then on the position exceeds its limit 3, and at the end by more than 1 / 5. -/
structure Exceeds (l : List (Fin 2 → F)) : Prop where
  len : l.length = 200
  speed : ∃ g, l[80]? = some g ∧ 3 / 2 < g 1
  position : ∀ g ∈ l.drop 147, 3 < g 0
  final : ∃ g, l[199]? = some g ∧ 16 / 5 < g 0

theorem ideal_exceeds : ∃ t : List (ℚ × ℚ), IdealRun (![-5, 1] : Fin 2 → F) (t.map toState) ∧ Exceeds (t.map (toState : ℚ × ℚ → Fin 2 → F)) := by
  obtain ⟨t, h1, h2, ⟨r, h3, h3'⟩, h4, r', h5, h5'⟩ := sim_run
  have := sim_ideal (F := F) _ _ _ t h1
  have e : (toState (-5, 1) : Fin 2 → F) = ![-5, 1] := by simp [toState]
  rw [e] at this
  refine ⟨t, this, by simpa using h2, ⟨toState r, by rw [List.getElem?_map, h3]; rfl, ?_⟩, fun g hg => ?_, ⟨toState r', by rw [List.getElem?_map, h5]; rfl, ?_⟩⟩
  · change (3 / 2 : F) < (r.2 : F)
    have : ((3 / 2 : ℚ) : F) < r.2 := by exact_mod_cast h3'
    push_cast at this
    exact this
  · rw [← List.map_drop, List.mem_map] at hg
    obtain ⟨q, hq, rfl⟩ := hg
    change (3 : F) < (q.1 : F)
    exact_mod_cast h4 q hq
  · change (16 / 5 : F) < (r'.1 : F)
    have : ((16 / 5 : ℚ) : F) < r'.1 := by exact_mod_cast h5'
    push_cast at this
    exact this

/-- **C126, the run of the example with exact minimisers.** The 200 turns from position -5 and speed 1, with the desired input 1: both limits are exceeded. -/
theorem di_run_exact [Archimedean F] (solver : Solver F) (hex : Exact solver) (fuel : ℕ) (l : List ((Fin 2 → F) × Status))
    (hl : diLoop solver fuel (fun _ => 1) 200 (Filter.new diDyn diPrm, ![-5, 1]) = some l) (ho : ∀ p ∈ l, p.2 = .optimal) : Exceeds (l.map Prod.fst) := by
  obtain ⟨h1, h2⟩ := di_loop_ideal solver hex fuel 200 [] _ rfl _ l hl ho
  obtain ⟨t, h3, h4⟩ := ideal_exceeds (F := F)
  rw [idealRun_unique h2 h3 (by rw [h4.len, List.length_map, h1])]
  exact h4

end

/-! ## The modelled solver: the calls return -/

variable {qenv : (n : ℕ) → QP.Env ℝ n} {qprm : QP.Params ℝ}

theorem di_sens_list (l : List ℝ) (t : ℝ) (g : Fin 2 → ℝ) (S : Matrix (Fin 2) (Fin 2) ℝ) : sens diEnv diDyn diBackup l t g S = !![1, l.sum; 0, 1] * S := by
  induction l generalizing t g S with
  | nil =>
    have : (!![1, (0 : ℝ); 0, 1] : Matrix (Fin 2) (Fin 2) ℝ) = 1 := by
      ext i j; fin_cases i <;> fin_cases j <;> simp
    rw [List.sum_nil, this, Matrix.one_mul]
    rfl
  | cons e l ih =>
    rw [sens, ih]
    ext i j
    fin_cases i <;> fin_cases j <;> simp [diEnv, diBackup, Matrix.mul_apply, Matrix.vecMul, dotProduct, Fin.sum_univ_two] <;> ring

theorem di_dx (a : ℝ) : (!![-1, 0; 0, -1] : Matrix (Fin 2) (Fin 2) ℝ) * !![1, a; 0, 1] = !![-1, -a; 0, -1] := by
  ext i j
  fin_cases i <;> fin_cases j <;> simp [Matrix.mul_apply, Fin.sum_univ_two]

theorem di_steep (g : Fin 2 → ℝ) (udes : Fin 1 → ℝ) : Steep diEnv diDyn diPrm ⟨g, udes, diSafe, diBackup⟩ 1 := by
  intro steps hS k hk i j
  have hK : k ≤ 50 := (show k < 50 from hk).le
  have hS' : Schedule 50 ((1 / 2 : ℝ) / (50 : ℕ)) (min (1 / 100) ((1 / 2 : ℝ) / (50 : ℕ))) steps := hS
  have hb := hS'.step_bounds (by norm_num) (by norm_num) (by norm_num) k hK
  have ht := (hS'.time (by norm_num) (min_le_right _ _) k hK).2
  have e1 : min (1 / 100 : ℝ) ((1 / 2 : ℝ) / (50 : ℕ)) = 1 / 100 := by norm_num
  have hsum : (steps k).sum ≤ 1 := by
    rw [e1] at ht
    have : (k : ℝ) ≤ 50 := by exact_mod_cast hK
    rw [show ((50 : ℕ) : ℝ) = 50 by norm_num] at ht
    linarith
  have hpos : 0 ≤ (steps k).sum := List.sum_nonneg fun e he => (hb e he).1
  rw [di_sens_list, Matrix.mul_one]
  have hi : i = (0 : Fin 2) ∨ i = (1 : Fin 2) := by
    have : ∀ j : Fin 2, j = 0 ∨ j = 1 := by decide
    exact this i
  obtain rfl : j = (0 : Fin 1) := Subsingleton.elim (α := Fin 1) _ _
  rcases hi with rfl | rfl
  · change |((!![-1, 0; 0, -1] : Matrix (Fin 2) (Fin 2) ℝ) * !![1, (steps k).sum; 0, 1] * (!![0; 1] : Matrix (Fin 2) (Fin 1) ℝ)) 0 0| ≤ 1
    rw [di_dx]
    simp [Matrix.mul_apply, Fin.sum_univ_two, abs_of_nonneg hpos]
    exact hsum
  · change |((!![-1, 0; 0, -1] : Matrix (Fin 2) (Fin 2) ℝ) * !![1, (steps k).sum; 0, 1] * (!![0; 1] : Matrix (Fin 2) (Fin 1) ℝ)) 1 0| ≤ 1
    rw [di_dx]
    simp [Matrix.mul_apply, Fin.sum_univ_two]

/-- The tolerances for infeasibility with which the filter of the example is never called infeasible; the defaults of the solver satisfy them. -/
structure DiUsual (qprm : QP.Params ℝ) : Prop where
  primal : qprm.epsPrimalInf ≤ 1 / 204
  dual : qprm.epsDualInf < 1
  limit : qprm.maxIter = none ∧ qprm.maxTime = none

theorem di_call_optimal (hS : Solves qenv qprm) (hq : DiUsual qprm) (s : Filter (Fin 2 → ℝ) (Fin 1 → ℝ) ℝ 2 1) (hs : Kept diDyn diPrm s) (g : Fin 2 → ℝ) (udes : Fin 1 → ℝ) :
    ∃ N r, (∀ fuel, N ≤ fuel → s.call diEnv (withQP (nu := 1) (qenv 2) qprm fuel) fuel ⟨g, udes, diSafe, diBackup⟩ = some r) ∧ Kept diDyn diPrm r.1 ∧ r.2.2 = .optimal := by
  obtain ⟨N, r, a1, a2, -, a3⟩ := call_always hS diEnv diDyn diPrm (fun i => by simp [diPrm]) (by norm_num [diPrm]) (Or.inr (Or.inr (by norm_num [diPrm]))) s hs
    ⟨g, udes, diSafe, diBackup⟩ rfl
  refine ⟨N, r, a1, a2, a3 1 ⟨by norm_num, fun i => ?_, ?_, ?_, ?_, hq.limit⟩ (di_steep g udes) ?_ ⟨(0 : Fin 1), -1, 1, rfl, rfl⟩
    ⟨0, (di_bounds 0).2 (by norm_num)⟩⟩
  · have := hq.dual
    simp [diPrm]
    linarith
  · have := hq.dual
    simp only [diPrm]
    linarith
  · have := hq.primal
    simp only [diPrm]
    norm_num
    linarith
  · have := hq.primal
    simp only [diPrm]
    norm_num
    linarith
  · change ∀ i : Fin 1, ∃ j : Fin 1, (1 : Matrix (Fin 1) (Fin 1) ℝ) i j = 1 ∧ ∀ i' : Fin 1, i' ≠ i → (1 : Matrix (Fin 1) (Fin 1) ℝ) i' j = 0
    intro i
    exact ⟨i, Matrix.one_apply_eq i, fun i' hi => absurd (Subsingleton.elim _ _) hi⟩

theorem di_loop_optimal (hS : Solves qenv qprm) (hq : DiUsual qprm) (udes : Fin 1 → ℝ) (n : ℕ) (s : Filter (Fin 2 → ℝ) (Fin 1 → ℝ) ℝ 2 1) (hs : Kept diDyn diPrm s) (g : Fin 2 → ℝ) :
    ∃ N l, (∀ fuel, N ≤ fuel → diLoop (withQP (nu := 1) (qenv 2) qprm fuel) fuel udes n (s, g) = some l) ∧ l.length = n ∧ ∀ p ∈ l, p.2 = .optimal := by
  induction n generalizing s g with
  | zero => exact ⟨0, [], fun _ _ => rfl, rfl, by simp⟩
  | succ n ih =>
    obtain ⟨N1, ⟨s', u, st⟩, h1, h2, h3⟩ := di_call_optimal hS hq s hs g udes
    dsimp only at h2 h3
    subst h3
    obtain ⟨N2, l, h4, h5, h6⟩ := ih s' h2 (diStep u (1 / 20) g)
    refine ⟨max N1 N2, (diStep u (1 / 20) g, .optimal) :: l, fun fuel hf => ?_, by simp [h5], fun p hp => ?_⟩
    · rw [diLoop, diTurn, h1 fuel (le_of_max_le_left hf), Option.map_some, Option.bind_some, h4 fuel (le_of_max_le_right hf)]
      rfl
    · rcases List.mem_cons.1 hp with rfl | hp
      · rfl
      · exact h6 p hp

/-- **C126, the program returns.** With the modelled solver the program of the example runs to its end, for any number of turns, from every state and for every desired input, and every
call of the filter reports Optimal. -/
theorem di_run_optimal (hS : Solves qenv qprm) (hq : DiUsual qprm) (udes : Fin 1 → ℝ) (n : ℕ) (g : Fin 2 → ℝ) :
    ∃ N l, (∀ fuel, N ≤ fuel → diLoop (withQP (nu := 1) (qenv 2) qprm fuel) fuel udes n (Filter.new diDyn diPrm, g) = some l) ∧ l.length = n ∧ ∀ p ∈ l, p.2 = .optimal :=
  di_loop_optimal hS hq udes n _ (kept_new _ _) g

/-! ## The modelled solver: how close its run is to the ideal one -/

/-- The program of a call at the state `g` with the desired input 1. -/
noncomputable def diBuilt (g : Fin 2 → ℝ) : DQP ℝ := built diEnv diDyn diBackup diSafe ⟨1 / 2, g, fun _ => 1, fun _ => 1, diPrm.ulim⟩ ⟨50, 1, 1 / 100, 100⟩ diSteps

theorem di_toQP {g : Fin 2 → ℝ} {fuel : ℕ} {qp : DQP ℝ} (h : toQP diEnv diDyn diBackup diSafe ⟨1 / 2, g, fun _ => 1, fun _ => 1, diPrm.ulim⟩ ⟨50, 1, 1 / 100, 100⟩ fuel = some qp) :
    qp = diBuilt g := by
  have hb := update_eq diEnv diDyn diBackup diSafe ⟨1 / 2, g, fun _ => (1 : ℝ), fun _ => 1, diPrm.ulim⟩ ⟨50, 1, 1 / 100, 100⟩ (max fuel 51) diSteps diSteps_schedule (fun k hk => by
    have : k ≤ 50 := hk
    simp [diSteps]
    omega) _ (allocate_clean _ _ _ _)
  have h2 := update_mono diEnv diDyn diBackup diSafe _ _ fuel (max fuel 51) (le_max_left _ _) _ _ h
  rw [hb] at h2
  exact (Option.some.inj h2).symm

/-- The matrices of the program do not depend on the state. -/
theorem diBuilt_A (g g' : Fin 2 → ℝ) : (diBuilt g).A = (diBuilt g').A := by
  have : barA diEnv diDyn diBackup diSafe ⟨1 / 2, g, fun _ => (1 : ℝ), fun _ => 1, diPrm.ulim⟩ diSteps =
      barA diEnv diDyn diBackup diSafe ⟨1 / 2, g', fun _ => (1 : ℝ), fun _ => 1, diPrm.ulim⟩ diSteps := by
    funext r c
    simp only [barA, after, diSteps, di_sens]
    rfl
  unfold diBuilt built
  dsimp only
  rw [this]

theorem diBuilt_P (g g' : Fin 2 → ℝ) : (diBuilt g).P = (diBuilt g').P := rfl

theorem diBuilt_u (g g' : Fin 2 → ℝ) : (diBuilt g).u = (diBuilt g').u := rfl

/-- The lower bounds of the barrier rows. -/
theorem di_barL (g : Fin 2 → ℝ) (k : ℕ) (j : Fin 2) : barL diEnv diDyn diBackup diSafe ⟨1 / 2, g, fun _ => (1 : ℝ), fun _ => 1, diPrm.ulim⟩ 1 diSteps (k * 2 + j) =
    .fin ((![g 0 + g 1 - 3 + (k : ℝ) / 100 * (g 1 + 1) - 3 / 10 * ((k : ℝ) / 100) * ((k : ℝ) / 100 - 1 / 100),
      1 + g 1 - 3 / 2 - 3 / 5 * ((k : ℝ) / 100)] : Fin 2 → ℝ) j) := by
  obtain ⟨e1, e2⟩ := row_split (nh := 2) (k := k) (r := k * 2 + j) (by omega) (by omega)
  have e3 : k * 2 + (j : ℕ) - k * 2 = j := by omega
  rw [e3] at e2
  have e1' : (k * 2 + (j : ℕ)) / (diSafe : Barrier (Fin 2 → ℝ) ℝ 2).nh = k := e1
  have e2' : (k * 2 + (j : ℕ)) % (diSafe : Barrier (Fin 2 → ℝ) ℝ 2).nh = j := e2
  unfold barL
  simp only [e1', e2']
  refine (extV_fin (n := 2) _ j).trans (congrArg Ext.fin ?_)
  simp only [after, diSteps, di_march, di_sens, Matrix.mul_one]
  have e4 : (diSafe : Barrier (Fin 2 → ℝ) ℝ 2).dx (0 + (List.replicate k (1 / 100 : ℝ)).sum)
      ![g 0 + k * (1 / 100) * g 1 - 3 / 10 * (k * (1 / 100)) * (k * (1 / 100) - 1 / 100), g 1 - 3 / 5 * (k * (1 / 100))] * !![1, (k : ℝ) * (1 / 100); 0, 1] =
      !![-1, -((k : ℝ) * (1 / 100)); 0, -1] := di_dx _
  rw [e4]
  fin_cases j
  · simp [diSafe, diDyn, Matrix.mulVec, dotProduct, Fin.sum_univ_two]
    ring
  · simp [diSafe, diDyn, Matrix.mulVec, dotProduct, Fin.sum_univ_two]
    ring

theorem diBuilt_l {g g' : Fin 2 → ℝ} {d : ℝ} (hd : 0 ≤ d) (h0 : |g 0 - g' 0| ≤ d) (h1 : |g 1 - g' 1| ≤ d) (r : ℕ) (hr : r < 102) :
    QP.NearBound (3 * d) ((diBuilt g).l.val r) ((diBuilt g').l.val r) := by
  have a0 := abs_le.1 h0
  have a1 := abs_le.1 h1
  simp only [diBuilt, built]
  split_ifs with c1 c2
  · have hr2 : r < 100 := c1
    obtain ⟨k, j, rfl⟩ : ∃ (k : ℕ) (j : Fin 2), r = k * 2 + j := ⟨r / 2, ⟨r % 2, Nat.mod_lt _ (by norm_num)⟩, (Nat.div_add_mod' r 2).symm⟩
    have hk : k < 50 := by omega
    rw [di_barL, di_barL]
    have hk1 : (0 : ℝ) ≤ (k : ℝ) / 100 := by positivity
    have hk2 : (k : ℝ) / 100 ≤ 1 := by
      have : (k : ℝ) ≤ 50 := by exact_mod_cast hk.le
      linarith
    have p1 := mul_le_mul_of_nonneg_left a1.1 hk1
    have p2 := mul_le_mul_of_nonneg_left a1.2 hk1
    have p3 := mul_le_mul_of_nonneg_right hk2 hd
    change |_ - _| ≤ _
    rw [abs_le]
    fin_cases j
    · simp only [Fin.zero_eta, Matrix.cons_val_zero]
      constructor <;> linarith
    · simp only [Fin.mk_one, Matrix.cons_val_one, Matrix.cons_val_zero]
      constructor <;> linarith
  · have hrefl : ∀ e : Ext ℝ, QP.NearBound (3 * d) e e := by
      intro e
      cases e with
      | neg => trivial
      | pos => trivial
      | fin a => change |a - a| ≤ _; rw [sub_self, abs_zero]; linarith
    exact hrefl _
  · change |(0 : ℝ) - 0| ≤ _
    rw [sub_self, abs_zero]
    linarith

/-- Minimisers of the program are ideal. -/
theorem di_minimiser {g : Fin 2 → ℝ} {v : Fin 2 → ℝ} (h : Minimiser ((diBuilt g).pbm 2 102) v) : Ideal (g 0) (g 1) (1 + v 0) := by
  have hF : ∀ v : Fin 2 → ℝ, Feasible ((diBuilt g).pbm 2 102) v ↔ Allowed (g 0) (g 1) (1 + v 0) (v 1) := by
    intro v
    refine (built_feasible (nu := 1) diEnv diDyn diBackup diSafe ⟨1 / 2, g, fun _ => (1 : ℝ), fun _ => 1, diPrm.ulim⟩ ⟨50, 1, 1 / 100, 100⟩ diSteps v).trans ?_
    rw [di_safe]
    have hb : InPoly (diPrm.ulim : Bounds (Fin 1 → ℝ) ℝ 1) ((diEnv : Env (Fin 2 → ℝ) (Fin 1 → ℝ) ℝ 2 1).uminus (fun _ => 1) diPrm.ulim.c + corr v) ↔ -1 ≤ 1 + v 0 ∧ 1 + v 0 ≤ 1 := by
      have := di_bounds (F := ℝ) (fun _ => 1 + v 0)
      rw [← this]
      unfold InBounds
      have e : (diEnv : Env (Fin 2 → ℝ) (Fin 1 → ℝ) ℝ 2 1).uminus (fun _ => 1) (diPrm : FPrm (Fin 1 → ℝ) ℝ 1).ulim.c + corr v =
          (diEnv : Env (Fin 2 → ℝ) (Fin 1 → ℝ) ℝ 2 1).uminus (fun _ => 1 + v 0) (diPrm : FPrm (Fin 1 → ℝ) ℝ 1).ulim.c := by
        funext i
        obtain rfl : i = 0 := Subsingleton.elim _ _
        simp [diEnv, diPrm, corr]
      rw [e]
    rw [hb]
    constructor
    · rintro ⟨h1, ⟨h2, h3⟩, h4⟩
      exact ⟨h2, h3, h4, fun k hk => (h1 k hk).1, fun k hk => (h1 k hk).2⟩
    · rintro ⟨h1, h2, h3, h4, h5⟩
      exact ⟨fun k hk => ⟨h4 k hk, h5 k hk⟩, ⟨h1, h2⟩, h3⟩
  have hc : ∀ v : Fin 2 → ℝ, cost ((diBuilt g).pbm 2 102) v = ((1 + v 0 - 1) ^ 2 + 100 * v 1 ^ 2) / 2 := by
    intro v
    refine (built_cost (nu := 1) diEnv diDyn diBackup diSafe ⟨1 / 2, g, fun _ => (1 : ℝ), fun _ => 1, diPrm.ulim⟩ ⟨50, 1, 1 / 100, 100⟩ diSteps 102 v).trans ?_
    simp [corr, slack]
  refine ⟨v 1, (hF v).1 h.1, fun w t hw => ?_⟩
  have := h.2 ![w - 1, t] ((hF _).2 (by simpa using hw))
  rw [hc, hc] at this
  simp at this
  simp
  linarith

/-- **C126, one call.** With small tolerances the modelled solver returns almost the ideal input, at every state near the given one. -/
theorem di_call_close (g0 : Fin 2 → ℝ) (u0 : ℝ) (hI : Ideal (g0 0) (g0 1) u0) : ∃ C e0 : ℝ, 0 ≤ C ∧ 0 < e0 ∧
    ∀ (qenv : QP.Env ℝ 2) (qprm : QP.Params ℝ) (fuel : ℕ) (s s' : Filter (Fin 2 → ℝ) (Fin 1 → ℝ) ℝ 2 1) (g : Fin 2 → ℝ) (u : Fin 1 → ℝ) (d : ℝ), QP.SqrtPos qenv → 0 < qprm.rho →
      qprm.polish = false → 0 ≤ qprm.epsAbs → qprm.epsRel = 0 → Kept diDyn diPrm s → 0 ≤ d → |g 0 - g0 0| ≤ d → |g 1 - g0 1| ≤ d → 3 * d + qprm.epsAbs ≤ e0 →
      s.call diEnv (withQP (nu := 1) qenv qprm fuel) fuel ⟨g, fun _ => 1, diSafe, diBackup⟩ = some (s', u, .optimal) → |u 0 - u0| ≤ C * (3 * d + qprm.epsAbs) := by
  obtain ⟨C, hC, hmain⟩ := QP.qp_answers_stable ((diBuilt g0).pbm 2 102).P ((diBuilt g0).pbm 2 102).A
  have hne : ∃ w, InBox ((diBuilt g0).pbm 2 102) w := by
    have hb := update_eq diEnv diDyn diBackup diSafe ⟨1 / 2, g0, fun _ => (1 : ℝ), fun _ => 1, diPrm.ulim⟩ ⟨50, 1, 1 / 100, 100⟩ 51 diSteps diSteps_schedule (fun k hk => by
      have : k ≤ 50 := hk
      simp [diSteps]
      omega) _ (allocate_clean _ _ _ _)
    obtain ⟨v, hv⟩ := asif_feasible diEnv diDyn diBackup diSafe _ _ 51 _ hb (fun _ => 1) ((di_bounds _).2 (by norm_num))
    exact ⟨_, hv⟩
  obtain ⟨e0, he0, hb⟩ := hmain ((diBuilt g0).pbm 2 102).q ((diBuilt g0).pbm 2 102).l ((diBuilt g0).pbm 2 102).u hne
  refine ⟨C, e0, hC, he0, fun qenv qprm fuel s s' g u d hsq hr hpol hea her hs hd h0 h1 hle hc => ?_⟩
  rw [kept_program _ fuel hs _ rfl, Option.bind_eq_some_iff] at hc
  obtain ⟨qp, c1, c2⟩ := hc
  obtain rfl := di_toQP c1
  rw [Option.bind_eq_some_iff] at c2
  obtain ⟨sol, c3, c4⟩ := c2
  unfold withQP at c3
  dsimp only at c3
  split at c3
  · rename_i q hq
    obtain rfl := Option.some.inj c3
    rw [if_pos (by simp)] at c4
    obtain ⟨-, c5, c6⟩ := by simpa using c4
    obtain ⟨⟨z, rp, rd, hz, hcz, ⟨_, _, _, -, -, -, e1⟩, hp, ⟨_, _, _, -, -, -, e2⟩, hdu⟩, -⟩ := QP.qp_optimal_certificate hsq hr hpol hq c6
    rw [her, zero_mul, add_zero] at e1 e2
    subst e1 e2
    have hA : ((diBuilt g).pbm 2 102).A = ((diBuilt g0).pbm 2 102).A := by
      unfold DQP.pbm
      dsimp only
      rw [diBuilt_A g g0]
    obtain ⟨x, y, k1, k2, -⟩ := hb ((diBuilt g).pbm 2 102).q ((diBuilt g).pbm 2 102).l ((diBuilt g).pbm 2 102).u (3 * d) qprm.epsAbs (by linarith) hea hle
      (fun j => by change |(0 : ℝ) - 0| ≤ _; rw [sub_self, abs_zero]; linarith) (fun i => diBuilt_l hd h0 h1 i i.2)
      (fun i => by
        have hrefl : ∀ e : Ext ℝ, QP.NearBound (3 * d) e e := by
          intro e
          cases e with
          | neg => trivial
          | pos => trivial
          | fin a => change |a - a| ≤ _; rw [sub_self, abs_zero]; linarith
        exact hrefl _) q.primal q.dual z hz hcz (fun i => by rw [← hA]; exact hp i) (fun j => by rw [← hA]; exact hdu j)
    have hmin : Minimiser ((diBuilt g0).pbm 2 102) x := QP.kkt_minimiser (built_psd diEnv diDyn diBackup diSafe ⟨1 / 2, g0, fun _ => (1 : ℝ), fun _ => 1, diPrm.ulim⟩
      ⟨50, 1, 1 / 100, 100⟩ (fun _ => zero_le_one) (by norm_num) diSteps _) k1
    have hid := ideal_unique hI (di_minimiser hmin)
    have hu : u 0 = 1 + q.primal 0 := by
      rw [← c5]
      rfl
    have := k2 0
    rw [hid, hu]
    rw [abs_sub_comm] at this
    calc |1 + q.primal 0 - (1 + x 0)| = |q.primal 0 - x 0| := by ring_nf
      _ ≤ _ := this
  · cases c3
  · cases c3

/-- **C126, the run.** For every ideal run and every margin there is a tolerance with which the run of the modelled solver stays within the margin. -/
theorem di_loop_close (L : List (Fin 2 → ℝ)) (g0 : Fin 2 → ℝ) (hL : IdealRun g0 L) (η : ℝ) (hη : 0 < η) : ∃ δ : ℝ, 0 < δ ∧
    ∀ (qenv : QP.Env ℝ 2) (qprm : QP.Params ℝ) (fuel : ℕ) (s : Filter (Fin 2 → ℝ) (Fin 1 → ℝ) ℝ 2 1) (g : Fin 2 → ℝ) (l : List ((Fin 2 → ℝ) × Status)), QP.SqrtPos qenv → 0 < qprm.rho →
      qprm.polish = false → 0 ≤ qprm.epsAbs → qprm.epsRel = 0 → qprm.epsAbs ≤ δ → Kept diDyn diPrm s → |g 0 - g0 0| ≤ δ → |g 1 - g0 1| ≤ δ →
      diLoop (withQP (nu := 1) qenv qprm fuel) fuel (fun _ => 1) L.length (s, g) = some l → (∀ p ∈ l, p.2 = .optimal) →
      List.Forall₂ (fun a b : Fin 2 → ℝ => |b 0 - a 0| ≤ η ∧ |b 1 - a 1| ≤ η) L (l.map Prod.fst) := by
  induction L generalizing g0 with
  | nil =>
    refine ⟨1, one_pos, fun qenv qprm fuel s g l _ _ _ _ _ _ _ _ _ hl _ => ?_⟩
    obtain rfl := Option.some.inj hl
    exact .nil
  | cons a L ih =>
    obtain ⟨⟨u0, hI, rfl⟩, hL⟩ := hL
    obtain ⟨δ, hδ, hmain⟩ := ih _ hL
    obtain ⟨C, e0, hC, he0, hcall⟩ := di_call_close g0 u0 hI
    have hm : 0 < min δ η := lt_min hδ hη
    refine ⟨min (e0 / 4) (min (min δ η / (2 + C)) δ), lt_min (by linarith) (lt_min (div_pos hm (by linarith)) hδ), ?_⟩
    intro qenv qprm fuel s g l hsq hr hpol hea her hea' hs h0 h1 hl ho
    set t := min (e0 / 4) (min (min δ η / (2 + C)) δ) with ht
    have t1 : 4 * t ≤ e0 := by
      have := min_le_left (e0 / 4) (min (min δ η / (2 + C)) δ)
      linarith
    have t2 : (2 + C) * t ≤ min δ η := by
      have h2 : t ≤ min δ η / (2 + C) := (min_le_right _ _).trans (min_le_left _ _)
      rw [le_div_iff₀ (by linarith)] at h2
      linarith
    have t3 : t ≤ δ := (min_le_right _ _).trans (min_le_right _ _)
    have t0 : 0 ≤ t := (abs_nonneg _).trans h0
    rw [List.length_cons, diLoop, Option.bind_eq_some_iff] at hl
    obtain ⟨⟨⟨s1, g1⟩, u, st⟩, e1, e2⟩ := hl
    rw [Option.map_eq_some_iff] at e2
    obtain ⟨l', e3, rfl⟩ := e2
    rw [diTurn, Option.map_eq_some_iff] at e1
    obtain ⟨⟨s2, u2, st2⟩, e4, e5⟩ := e1
    simp only [Prod.mk.injEq] at e5
    obtain ⟨⟨rfl, rfl⟩, rfl, rfl⟩ := e5
    obtain rfl : st2 = .optimal := ho _ List.mem_cons_self
    have hu := hcall qenv qprm fuel s s2 g u2 t hsq hr hpol hea her hs t0 h0 h1 (by linarith) e4
    have hu' : |u2 0 - u0| ≤ 4 * (C * t) := hu.trans (by
      have := mul_le_mul_of_nonneg_left hea' hC
      linarith)
    have hCt : 0 ≤ C * t := mul_nonneg hC t0
    have b0 := abs_le.1 h0
    have b1 := abs_le.1 h1
    have b2 := abs_le.1 hu'
    have n0 : |diStep u2 (1 / 20) g 0 - (![g0 0 + g0 1 / 20 + u0 / 800, g0 1 + u0 / 20] : Fin 2 → ℝ) 0| ≤ min δ η := by
      refine le_trans ?_ t2
      rw [di_next]
      simp only [Matrix.cons_val_zero]
      rw [abs_le]
      constructor <;> linarith
    have n1 : |diStep u2 (1 / 20) g 1 - (![g0 0 + g0 1 / 20 + u0 / 800, g0 1 + u0 / 20] : Fin 2 → ℝ) 1| ≤ min δ η := by
      refine le_trans ?_ t2
      rw [di_next]
      simp only [Matrix.cons_val_one, Matrix.cons_val_zero]
      rw [abs_le]
      constructor <;> linarith
    rw [List.map_cons]
    refine .cons ⟨n0.trans (min_le_right _ _), n1.trans (min_le_right _ _)⟩ ?_
    exact hmain qenv qprm fuel s2 _ l' hsq hr hpol hea her (hea'.trans t3) (kept_call hs _ _ e4) (n0.trans (min_le_left _ _)) (n1.trans (min_le_left _ _)) e3
      (fun p hp => ho p (List.mem_cons_of_mem _ hp))

/-- The limits are exceeded by a margin. -/
theorem exceeds_margin {L : List (Fin 2 → ℝ)} (h : Exceeds L) : ∃ η : ℝ, 0 < η ∧ ∀ l, List.Forall₂ (fun a b : Fin 2 → ℝ => |b 0 - a 0| ≤ η ∧ |b 1 - a 1| ≤ η) L l → Exceeds l := by
  obtain ⟨hlen, ⟨g1, a1, b1⟩, hpos, g2, a2, b2⟩ := h
  have hmar : ∃ m : ℝ, 0 < m ∧ ∀ g ∈ L.drop 147, 3 + m < g 0 := by
    generalize L.drop 147 = K at hpos
    induction K with
    | nil => exact ⟨1, one_pos, by simp⟩
    | cons a K ih =>
      obtain ⟨m, hm, h⟩ := ih fun g hg => hpos g (List.mem_cons_of_mem _ hg)
      have ha := hpos a List.mem_cons_self
      refine ⟨min m ((a 0 - 3) / 2), lt_min hm (by linarith), fun g hg => ?_⟩
      rcases List.mem_cons.1 hg with rfl | hg
      · have := min_le_right m ((g 0 - 3) / 2)
        linarith
      · have := h g hg
        have := min_le_left m ((a 0 - 3) / 2)
        linarith
  obtain ⟨m, hm, hmar⟩ := hmar
  refine ⟨min m (min ((g1 1 - 3 / 2) / 2) ((g2 0 - 16 / 5) / 2)), lt_min hm (lt_min (by linarith) (by linarith)), fun l hl => ?_⟩
  have m1 := min_le_left m (min ((g1 1 - 3 / 2) / 2) ((g2 0 - 16 / 5) / 2))
  have m2 := (min_le_right m (min ((g1 1 - 3 / 2) / 2) ((g2 0 - 16 / 5) / 2))).trans (min_le_left _ _)
  have m3 := (min_le_right m (min ((g1 1 - 3 / 2) / 2) ((g2 0 - 16 / 5) / 2))).trans (min_le_right _ _)
  have hlen' : l.length = 200 := hl.length_eq ▸ hlen
  rw [List.forall₂_iff_get] at hl
  refine ⟨hlen', ⟨l[80]'(by omega), List.getElem?_eq_getElem _, ?_⟩, fun g hg => ?_, ⟨l[199]'(by omega), List.getElem?_eq_getElem _, ?_⟩⟩
  · have := (abs_le.1 (hl.2 80 (by omega) (by omega)).2).1
    rw [List.getElem?_eq_getElem (by omega)] at a1
    have e := Option.some.inj a1
    simp only [List.get_eq_getElem] at this
    rw [e] at this
    linarith
  · obtain ⟨i, hi, rfl⟩ := List.mem_iff_getElem.1 hg
    rw [List.length_drop] at hi
    have := (abs_le.1 (hl.2 (147 + i) (by omega) (by omega)).1).1
    simp only [List.get_eq_getElem] at this
    have h2 := hmar (L[147 + i]'(by omega)) (List.mem_iff_getElem.2 ⟨i, by rw [List.length_drop]; omega, by rw [List.getElem_drop]⟩)
    rw [List.getElem_drop]
    linarith
  · have := (abs_le.1 (hl.2 199 (by omega) (by omega)).1).1
    rw [List.getElem?_eq_getElem (by omega)] at a2
    have e := Option.some.inj a2
    simp only [List.get_eq_getElem] at this
    rw [e] at this
    linarith

/-- **C126, the run of the example with the modelled solver.** With small enough tolerances the program of the example, with its 200 turns, runs to its end with every status Optimal, and
exceeds both limits. -/
theorem di_run_modelled : ∃ ε : ℝ, 0 < ε ∧ ∀ (qenv : (n : ℕ) → QP.Env ℝ n) (qprm : QP.Params ℝ), Solves qenv qprm → DiUsual qprm → qprm.polish = false → qprm.epsRel = 0 →
    qprm.epsAbs ≤ ε → ∃ N l, (∀ fuel, N ≤ fuel → diLoop (withQP (nu := 1) (qenv 2) qprm fuel) fuel (fun _ => 1) 200 (Filter.new diDyn diPrm, ![-5, 1]) = some l) ∧
      (∀ p ∈ l, p.2 = .optimal) ∧ Exceeds (l.map Prod.fst) := by
  obtain ⟨t, h1, h2⟩ := ideal_exceeds (F := ℝ)
  obtain ⟨η, hη, h3⟩ := exceeds_margin h2
  obtain ⟨δ, hδ, h4⟩ := di_loop_close _ _ h1 η hη
  refine ⟨δ, hδ, fun qenv qprm hS hq hpol her hea => ?_⟩
  obtain ⟨N, l, a1, a2, a3⟩ := di_run_optimal hS hq (fun _ => 1) 200 ![-5, 1]
  refine ⟨N, l, a1, a3, h3 _ (h4 (qenv 2) qprm N _ ![-5, 1] l (hS.sqrt 2) hS.rho hpol hS.epsAbs.le her hea (kept_new _ _) (by simpa using hδ.le) (by simpa using hδ.le) ?_ a3)⟩
  rw [h2.len]
  exact a1 N le_rfl

end Verif.ASIF
