import Verif.Props.Vehicle
import Verif.Props.ASIFAlways
import Verif.Props.ASIFLie
import Mathlib.Analysis.Complex.Norm

/-! # The vehicle's safety filter with the modelled solver (C125) -/

set_option linter.unusedSectionVars false

namespace Verif.Vehicle

open scoped Matrix
open Verif.Lie Verif.QPSpec
open Verif.QP (Ext Status)

variable {X σ : Type*} {L : LieOps X ℝ 6} {P : Parts X ℝ}

/-- An Euler step of a rotation with an inflow. -/
theorem rot_step (a b p q e w : ℝ) (he : 0 ≤ e) :
    ‖(⟨a + e * (w * b + p), b + e * (-(w * a) + q)⟩ : ℂ)‖ ≤ (1 + (e * w) ^ 2 / 2) * ‖(⟨a, b⟩ : ℂ)‖ + e * ‖(⟨p, q⟩ : ℂ)‖ := by
  have h1 : (⟨a + e * (w * b + p), b + e * (-(w * a) + q)⟩ : ℂ) = ⟨1, -(e * w)⟩ * ⟨a, b⟩ + (e : ℂ) * ⟨p, q⟩ := by
    apply Complex.ext <;> simp <;> ring
  have h2 : ‖(⟨1, -(e * w)⟩ : ℂ)‖ ≤ 1 + (e * w) ^ 2 / 2 := by
    refine abs_le_of_sq_le_sq' ?_ (by positivity) |>.2
    rw [Complex.sq_norm, Complex.normSq_mk]
    nlinarith [sq_nonneg ((e * w) ^ 2)]
  rw [h1]
  refine (norm_add_le _ _).trans ?_
  rw [norm_mul, norm_mul, Complex.norm_real, Real.norm_eq_abs, abs_of_nonneg he]
  exact add_le_add_left (mul_le_mul_of_nonneg_right h2 (norm_nonneg _)) _

/-- What holds along the trajectories of the filter at time `t`, of the state and of two columns of the sensitivity. -/
structure Along (P : Parts X ℝ) (ε t : ℝ) (x : X) (S : Matrix (Fin 6) (Fin 6) ℝ) : Prop where
  mod : Moderate P ε x
  lat : P.vel x 1 = 0
  c3 : S 2 3 = 0 ∧ S 3 3 = 1 ∧ S 4 3 = 0 ∧ S 5 3 = 0
  z3 : ‖(⟨S 0 3, S 1 3⟩ : ℂ)‖ ≤ 2 * t
  c5 : S 3 5 = 0 ∧ S 4 5 = 0 ∧ 0 ≤ S 5 5 ∧ S 5 5 ≤ 1
  t5 : 0 ≤ S 2 5 ∧ S 2 5 ≤ t
  z5 : ‖(⟨S 0 5, S 1 5⟩ : ℂ)‖ ≤ 3 / 2 * t ^ 2

/-- The columns of the sensitivity after a step. -/
theorem sens_col (had : AdPart L) (e : ℝ) (y : X) (hy : P.vel y 1 = 0) (t : ℝ) (S : Matrix (Fin 6) (Fin 6) ℝ) (j : Fin 6) :
    (fun k => (S + e • (((backup P).dcl t y - (env L).ad ((dyn P).f y ((backup P).bu t y))) * S)) k j) =
      ![S 0 j + e * (P.vel y 2 * S 1 j + S 3 j), S 1 j + e * (-(P.vel y 2 * S 0 j) + (S 4 j + P.vel y 0 * S 2 j)), S 2 j + e * S 5 j, S 3 j, S 4 j,
        S 5 j - 2 / 5 * e * S 5 j] := by
  have h : ∀ k, (S + e • (((backup P).dcl t y - (env L).ad ((dyn P).f y ((backup P).bu t y))) * S)) k j =
      S k j + e * (((backup P).dcl t y *ᵥ fun k => S k j) k - ((env L).ad ((dyn P).f y ((backup P).bu t y)) *ᵥ fun k => S k j) k) := by
    intro k
    rw [Matrix.add_apply, Matrix.smul_apply, Matrix.sub_mul, Matrix.sub_apply]
    rfl
  have ha : ∀ k, ((env L).ad ((dyn P).f y ((backup P).bu t y)) *ᵥ fun k => S k j) k =
      ![-P.vel y 2 * S 1 j + P.vel y 1 * S 2 j, P.vel y 2 * S 0 j - P.vel y 0 * S 2 j, 0, 0, 0, 0] k := fun k => congrFun (had _ _) k
  funext k
  rw [h, ha, hy]
  fin_cases k <;> simp [backup, Matrix.mulVec, dotProduct, Fin.sum_univ_succ] <;> first | done | (left; ring) | ring

theorem along_step (hv : VelPart L P) (had : AdPart L) {ε : ℝ} (h0 : 0 ≤ ε) (h1 : ε ≤ 1 / 100) {t e : ℝ} (ht : 0 ≤ t) (he : 0 ≤ e) (he1 : e ≤ 1 / 100) (hte : t + e ≤ 3) {x : X}
    {S : Matrix (Fin 6) (Fin 6) ℝ} (h : Along P ε t x S) (y : X) (hy : y = (env L).xplus x (e • (dyn P).f x ((backup P).bu t x))) :
    Along P ε (t + e) y (S + e • (((backup P).dcl t y - (env L).ad ((dyn P).f y ((backup P).bu t y))) * S)) := by
  have hvel : P.vel y = ![P.vel x 0, P.vel x 1, (1 - 2 / 5 * e) * P.vel x 2 + (1 - (1 - 2 / 5 * e)) * -(5 / 4)] := by
    rw [hy]
    refine (hv x _).trans ?_
    funext k
    fin_cases k <;> simp [dyn, f, backup]
    ring
  have e0 : P.vel y 0 = P.vel x 0 := by rw [hvel]; rfl
  have e1 : P.vel y 1 = 0 := by rw [hvel]; exact h.lat
  have e2 : P.vel y 2 = (1 - 2 / 5 * e) * P.vel x 2 + (1 - (1 - 2 / 5 * e)) * -(5 / 4) := by rw [hvel]; rfl
  have hm : Moderate P ε y := by
    unfold Moderate
    rw [e0, e2]
    exact ⟨h.mod.1, mix (by linarith) (by linarith) h.mod.2 ⟨by linarith, by linarith⟩⟩
  have hcol := fun j k => congrFun (sens_col (P := P) had e y e1 t S j) k
  set S' := S + e • (((backup P).dcl t y - (env L).ad ((dyn P).f y ((backup P).bu t y))) * S)
  have w2 : (e * P.vel y 2) ^ 2 / 2 ≤ e / 100 := by
    have h3 : P.vel y 2 ^ 2 ≤ 2 := by
      have := hm.2
      nlinarith
    have h4 : e * P.vel y 2 ^ 2 ≤ 1 / 100 * 2 := mul_le_mul he1 h3 (sq_nonneg _) (by norm_num)
    have := mul_le_mul_of_nonneg_left h4 he
    nlinarith
  have r0 : ∀ j, S' 0 j = S 0 j + e * (P.vel y 2 * S 1 j + S 3 j) := fun j => hcol j 0
  have r1 : ∀ j, S' 1 j = S 1 j + e * (-(P.vel y 2 * S 0 j) + (S 4 j + P.vel y 0 * S 2 j)) := fun j => hcol j 1
  have r2 : ∀ j, S' 2 j = S 2 j + e * S 5 j := fun j => hcol j 2
  have r3 : ∀ j, S' 3 j = S 3 j := fun j => hcol j 3
  have r4 : ∀ j, S' 4 j = S 4 j := fun j => hcol j 4
  have r5 : ∀ j, S' 5 j = S 5 j - 2 / 5 * e * S 5 j := fun j => hcol j 5
  obtain ⟨a2, a3, a4, a5⟩ := h.c3
  obtain ⟨b3, b4, b5, b5'⟩ := h.c5
  obtain ⟨b2, b2'⟩ := h.t5
  refine ⟨hm, e1, ⟨?_, ?_, ?_, ?_⟩, ?_, ⟨?_, ?_, ?_, ?_⟩, ⟨?_, ?_⟩, ?_⟩
  · rw [r2, a2, a5]; ring
  · rw [r3, a3]
  · rw [r4, a4]
  · rw [r5, a5]; ring
  · rw [r0, r1]
    refine (rot_step _ _ _ _ _ _ he).trans ?_
    have n1 : ‖(⟨S 3 3, S 4 3 + P.vel y 0 * S 2 3⟩ : ℂ)‖ = 1 := by
      rw [a2, a3, a4, mul_zero, add_zero]
      exact norm_one
    rw [n1]
    have n2 := mul_le_mul_of_nonneg_right w2 (norm_nonneg (⟨S 0 3, S 1 3⟩ : ℂ))
    have n3 := mul_le_mul_of_nonneg_left h.z3 he
    have n4 : e * t ≤ e * 3 := mul_le_mul_of_nonneg_left (by linarith) he
    have := h.z3
    linarith
  · rw [r3, b3]
  · rw [r4, b4]
  · rw [r5]
    have := mul_le_mul_of_nonneg_right he1 b5
    linarith
  · rw [r5]
    have := mul_nonneg he b5
    linarith
  · rw [r2]
    have := mul_nonneg he b5
    linarith
  · rw [r2]
    have := mul_le_mul_of_nonneg_left b5' he
    linarith
  · rw [r0, r1]
    refine (rot_step _ _ _ _ _ _ he).trans ?_
    have n1 : ‖(⟨S 3 5, S 4 5 + P.vel y 0 * S 2 5⟩ : ℂ)‖ ≤ 51 / 20 * t := by
      rw [b3, b4, zero_add]
      refine abs_le_of_sq_le_sq' ?_ (by positivity) |>.2
      rw [Complex.sq_norm, Complex.normSq_mk, mul_zero, zero_add, ← sq]
      refine sq_le_sq' ?_ ?_
      · have := mul_nonneg b2 (sub_nonneg.2 (show -(51 / 20) ≤ P.vel y 0 by linarith [hm.1.1]))
        nlinarith
      · have := mul_nonneg b2 (sub_nonneg.2 (show P.vel y 0 ≤ 51 / 20 by linarith [hm.1.2]))
        nlinarith
    have n2 := mul_le_mul_of_nonneg_right w2 (norm_nonneg (⟨S 0 5, S 1 5⟩ : ℂ))
    have n3 := mul_le_mul_of_nonneg_left h.z5 he
    have n4 := mul_le_mul_of_nonneg_left n1 he
    have n5 : e * t ^ 2 ≤ e * (3 * t) := mul_le_mul_of_nonneg_left (by nlinarith) he
    have := h.z5
    have : 0 ≤ e * t := mul_nonneg he ht
    nlinarith [sq_nonneg e]

theorem along_start {ε : ℝ} {x : X} (hx : Moderate P ε x) (hl : P.vel x 1 = 0) : Along P ε 0 x 1 := by
  refine ⟨hx, hl, ⟨rfl, rfl, rfl, rfl⟩, ?_, ⟨rfl, rfl, ?_, ?_⟩, ⟨?_, ?_⟩, ?_⟩
  · have : (⟨(1 : Matrix (Fin 6) (Fin 6) ℝ) 0 3, (1 : Matrix (Fin 6) (Fin 6) ℝ) 1 3⟩ : ℂ) = 0 := by apply Complex.ext <;> simp
    rw [this]; simp
  · simp
  · simp
  · simp
  · simp
  · have : (⟨(1 : Matrix (Fin 6) (Fin 6) ℝ) 0 5, (1 : Matrix (Fin 6) (Fin 6) ℝ) 1 5⟩ : ℂ) = 0 := by apply Complex.ext <;> simp
    rw [this]; simp

theorem along_march (hv : VelPart L P) (had : AdPart L) {ε : ℝ} (h0 : 0 ≤ ε) (h1 : ε ≤ 1 / 100) (l : List ℝ) (t : ℝ) (x : X) (S : Matrix (Fin 6) (Fin 6) ℝ) (ht : 0 ≤ t)
    (hl : ∀ e ∈ l, 0 ≤ e ∧ e ≤ 1 / 100) (hs : t + l.sum ≤ 3) (h : Along P ε t x S) :
    Along P ε (t + l.sum) (ASIF.march (env L) (dyn P) (backup P) l t x) (ASIF.sens (env L) (dyn P) (backup P) l t x S) := by
  induction l generalizing t x S with
  | nil => rw [List.sum_nil, add_zero]; exact h
  | cons e l ih =>
    obtain ⟨a1, a2⟩ := hl e List.mem_cons_self
    have hl' : ∀ e ∈ l, 0 ≤ e ∧ e ≤ 1 / 100 := fun e' h' => hl e' (List.mem_cons_of_mem _ h')
    have hnn : 0 ≤ l.sum := List.sum_nonneg fun e' h' => (hl' e' h').1
    rw [List.sum_cons] at hs ⊢
    rw [ASIF.march, ASIF.sens, ← add_assoc]
    exact ih (t + e) _ _ (by linarith) hl' (by linarith) (along_step hv had h0 h1 ht a1 a2 (by linarith) h _ rfl)

/-- The direction away from the obstacle is a unit vector, or zero. -/
theorem normalized_le (d : Fin 2 → ℝ) : normalized Real.sqrt d 0 ^ 2 + normalized Real.sqrt d 1 ^ 2 ≤ 1 := by
  unfold normalized
  split_ifs with h
  · have hs : Real.sqrt (d ⬝ᵥ d) ^ 2 = d ⬝ᵥ d := Real.sq_sqrt h.le
    rw [div_pow, div_pow, hs, ← add_div]
    have : d ⬝ᵥ d = d 0 ^ 2 + d 1 ^ 2 := by simp [dotProduct, Fin.sum_univ_two, sq]
    rw [← this, div_self h.ne']
  · have : d ⬝ᵥ d = d 0 ^ 2 + d 1 ^ 2 := by simp [dotProduct, Fin.sum_univ_two, sq]
    rw [this] at h
    linarith

/-- **C125, the coefficients.** From states with moderate speeds and no lateral speed the coefficients of the inputs in the barrier conditions are at most 10. -/
theorem vehicle_steep (hv : VelPart L P) (had : AdPart L) (hrot : RotPart P) {ε : ℝ} (h0 : 0 ≤ ε) (h1 : ε ≤ 1 / 100) (x : X) (hx : Moderate P ε x) (hl : P.vel x 1 = 0)
    (ud : Fin 2 → ℝ) : ASIF.Steep (env L) (dyn P) prm ⟨x, ud, safe P Real.sqrt, backup P⟩ 10 := by
  intro steps hS k hk i j
  have hK : k ≤ 200 := (show k < 200 from hk).le
  have hS' : ASIF.Schedule 200 ((5 / 2 : ℝ) / (200 : ℕ)) (min (1 / 100) ((5 / 2 : ℝ) / (200 : ℕ))) steps := hS
  have hb := hS'.step_bounds (by norm_num) (by norm_num) (by norm_num) k hK
  have ht := (hS'.time (by norm_num) (min_le_right _ _) k hK).2
  have hsum : (steps k).sum ≤ 251 / 100 := by
    have e1 : min (1 / 100 : ℝ) ((5 / 2 : ℝ) / (200 : ℕ)) = 1 / 100 := by norm_num
    rw [e1] at ht
    have e2 : (5 / 2 : ℝ) / (200 : ℕ) * k ≤ 5 / 2 := by
      have : (k : ℝ) ≤ 200 := by exact_mod_cast hK
      rw [show ((200 : ℕ) : ℝ) = 200 by norm_num]
      linarith
    linarith
  have hpos : 0 ≤ (steps k).sum := List.sum_nonneg fun e he => (hb e he).1
  have hal := along_march hv had h0 h1 (steps k) 0 x 1 le_rfl hb (by linarith) (along_start hx hl)
  rw [zero_add] at hal
  set y := ASIF.march (env L) (dyn P) (backup P) (steps k) 0 x
  set S := ASIF.sens (env L) (dyn P) (backup P) (steps k) 0 x 1
  set g := normalized Real.sqrt (dir P y) ᵥ* P.rot y with hg
  have hgn : g 0 ^ 2 + g 1 ^ 2 ≤ 1 := by
    have e1 : g ⬝ᵥ g = normalized Real.sqrt (dir P y) ⬝ᵥ normalized Real.sqrt (dir P y) := by
      rw [hg, ← Matrix.dotProduct_mulVec, ← Matrix.vecMul_transpose, Matrix.vecMul_vecMul, hrot, Matrix.vecMul_one]
    have e2 := normalized_le (dir P y)
    have e3 : ∀ v : Fin 2 → ℝ, v ⬝ᵥ v = v 0 ^ 2 + v 1 ^ 2 := fun v => by simp [dotProduct, Fin.sum_univ_two, sq]
    rw [e3, e3] at e1
    linarith
  have hval : ∀ c : Fin 6 → ℝ, ((safe P Real.sqrt).dx (steps k).sum y *ᵥ c) i = g 0 * c 0 + g 1 * c 1 := by
    intro c
    simp [Matrix.mulVec, dotProduct, Fin.sum_univ_succ, safe, ← hg]
  have hcs : ∀ a b r : ℝ, 0 ≤ r → ‖(⟨a, b⟩ : ℂ)‖ ≤ r → |g 0 * a + g 1 * b| ≤ r := by
    intro a b r hr h
    refine abs_le_of_sq_le_sq ?_ hr
    have h2 : a ^ 2 + b ^ 2 ≤ r ^ 2 := by
      have := pow_le_pow_left₀ (norm_nonneg _) h 2
      rw [Complex.sq_norm, Complex.normSq_mk] at this
      linarith
    nlinarith [sq_nonneg (g 0 * b - g 1 * a), mul_le_mul hgn h2 (by positivity) zero_le_one]
  have hent : ((safe P Real.sqrt).dx (steps k).sum y * S * (fu : Matrix (Fin 6) (Fin 2) ℝ)) i j =
      g 0 * (S * (fu : Matrix (Fin 6) (Fin 2) ℝ)) 0 j + g 1 * (S * (fu : Matrix (Fin 6) (Fin 2) ℝ)) 1 j := by
    rw [Matrix.mul_assoc]
    exact hval fun r => (S * (fu : Matrix (Fin 6) (Fin 2) ℝ)) r j
  refine (congrArg abs hent).le.trans ?_
  have hcol : ∀ r, (S * (fu : Matrix (Fin 6) (Fin 2) ℝ)) r j = S r (![3, 5] j) := by
    intro r
    fin_cases j <;> simp [Matrix.mul_apply, fu, Fin.sum_univ_succ] <;> rfl
  rw [hcol, hcol]
  refine hcs _ _ 10 (by norm_num) ?_
  fin_cases j
  · exact hal.z3.trans (by linarith)
  · exact hal.z5.trans (by nlinarith)

/-- The tolerances of the solver with which the filter of the example is never called infeasible; the defaults of the solver satisfy them. -/
structure Usual (qprm : QP.Params ℝ) : Prop where
  primal : qprm.epsPrimalInf ≤ 1 / 10000
  dual : qprm.epsDualInf < 1
  limit : qprm.maxIter = none ∧ qprm.maxTime = none

variable {qenv : (n : ℕ) → QP.Env ℝ n} {qprm : QP.Params ℝ}

/-- **C125, the vehicle's filter.** With the modelled solver and the default tolerances for infeasibility, every call of the filter of the example in a state with moderate speeds
and without lateral speed returns and reports Optimal, whatever the input of the predictive controller and after any calls. -/
theorem vehicle_filter_optimal (hv : VelPart L P) (had : AdPart L) (hrot : RotPart P) (hS : MPC.Solves qenv qprm) (hq : Usual qprm) {ε : ℝ} (h0 : 0 ≤ ε) (h1 : ε ≤ 1 / 100)
    (s : ASIF.Filter X (Fin 2 → ℝ) ℝ 6 2) (hs : ASIF.Kept (dyn P) prm s) (x : X) (hx : Moderate P ε x) (hl : P.vel x 1 = 0) (ud : Fin 2 → ℝ) :
    ∃ N r, (∀ fuel, N ≤ fuel → s.call (env L) (ASIF.withQP (nu := 2) (qenv 3) qprm fuel) fuel ⟨x, ud, safe P Real.sqrt, backup P⟩ = some r) ∧
      ASIF.Kept (dyn P) prm r.1 ∧ r.2.2 = .optimal := by
  obtain ⟨N, r, a1, a2, -, a3⟩ := ASIF.call_always hS (env L) (dyn P) prm (fun i => by fin_cases i <;> simp [prm]) (by norm_num [prm]) (Or.inr (Or.inr (by norm_num [prm]))) s hs
    ⟨x, ud, safe P Real.sqrt, backup P⟩ rfl
  refine ⟨N, r, a1, a2, a3 10 ⟨by norm_num, fun i => ?_, ?_, ?_, ?_, hq.limit⟩ (vehicle_steep hv had hrot h0 h1 x hx hl ud) ?_ ⟨(0 : Fin 2), -(1 / 5), 1 / 2, rfl, rfl⟩
    ⟨0, (inBounds_iff L 0).2 (by norm_num)⟩⟩
  · have := hq.dual
    fin_cases i <;> simp [prm] <;> linarith
  · have := hq.dual
    simp only [prm]
    linarith
  · have := hq.primal
    simp only [prm]
    norm_num
    linarith
  · have := hq.primal
    simp only [prm]
    norm_num
    linarith
  · change ∀ i : Fin 2, ∃ j : Fin 2, (!![1, 0; 0, 1] : Matrix (Fin 2) (Fin 2) ℝ) i j = 1 ∧ ∀ i' : Fin 2, i' ≠ i → (!![1, 0; 0, 1] : Matrix (Fin 2) (Fin 2) ℝ) i' j = 0
    intro i
    refine ⟨i, ?_, fun i' hi => ?_⟩
    · fin_cases i <;> rfl
    · fin_cases i <;> fin_cases i' <;> first | rfl | exact absurd rfl hi

/-! ## The program -/

open Verif.MPC Verif.Mesh

variable {menv : (n : ℕ) → QP.Env ℝ n} {mprm : QP.Params ℝ}

/-- The loop with both modelled solvers. -/
theorem loop_runs {sys : Sys ℝ ℝ σ X (Fin 2 → ℝ) 6 2} (hv : VelPart sys.LX P) (had : AdPart sys.LX) (hrot : RotPart P) (hS : Solves menv mprm) (hS' : Solves qenv qprm)
    (hq : Usual qprm) (hpol : qprm.polish = false) (her : qprm.epsRel = 0) (hea : qprm.epsAbs ≤ 1 / 100) (n k : ℕ) (w : World ℝ ℝ (QState ℝ) X (Fin 2 → ℝ) 6 2 2)
    (hw : Alive menv mprm sys 1 w) (s : ASIF.Filter X (Fin 2 → ℝ) ℝ 6 2) (hs : ASIF.Kept (dyn P) prm s) (x : X) (hx : Moderate P qprm.epsAbs x) (hl : P.vel x 1 = 0) :
    ∃ N out, (∀ fuel, N ≤ fuel → loop P Real.sqrt (sys.withSolver (qpObject menv mprm fuel)) (ASIF.withQP (nu := 2) (qenv 3) qprm fuel) fuel n k w s x = some out) ∧
      ∀ e ∈ out, e.code = .optimal ∧ Moderate P qprm.epsAbs e.x ∧ P.vel e.x 1 = 0 ∧
        ASIF.InBoundsBy qprm.epsAbs (env sys.LX) (prm : ASIF.FPrm (Fin 2 → ℝ) ℝ 2).ulim e.u ∧ (mprm.maxIter = none → mprm.maxTime = none → Verdict e.codeMpc) := by
  induction n generalizing k w s x with
  | zero => exact ⟨0, [], fun _ _ => rfl, fun e he => by cases he⟩
  | succ n ih =>
    obtain ⟨N1, ⟨w', o⟩, h1, h2, h3, h4⟩ := step_always hS (fun _ => by norm_num) sys 1 w hw (.call 0 ((k : ℝ) / 40) x) ⟨by norm_num, trivial⟩
    obtain _ | r := o
    · cases h3
    obtain ⟨N2, ⟨s', u, code⟩, c1, c2, c3⟩ := vehicle_filter_optimal hv had hrot hS' hq hS'.epsAbs.le hea s hs x hx hl r.u
    dsimp only at c2 c3
    subst c3
    have hb := ASIF.near_call (env sys.LX) (env_flat _) _ (ASIF.withQP_near (nu := 2) (hS'.sqrt 3) hS'.rho hpol her N2) N2 (dyn P) prm s s' hs _ u (c1 N2 le_rfl)
    obtain ⟨m1, m2⟩ := step_moderate hv hb hx
    obtain ⟨N3, out, i1, i2⟩ := ih (k + 1) w' h2 s' c2 (step sys.LX P u (1 / 40) x) m1 (m2.trans hl)
    refine ⟨max N1 (max N2 N3), ⟨x, r.u, r.code, u, .optimal⟩ :: out, fun fuel hf => ?_, fun e he => ?_⟩
    · have f1 := h1 fuel (le_of_max_le_left hf)
      have f2 := c1 fuel (le_of_max_le_left (le_of_max_le_right hf))
      have f3 := i1 fuel (le_of_max_le_right (le_of_max_le_right hf))
      have f1' : w.step (sys.withSolver (qpObject menv mprm fuel)) (.call 0 ((k : ℝ) / 40) x) = some (w', some r) := f1
      have f2' : s.call (env (sys.withSolver (qpObject menv mprm fuel)).LX) (ASIF.withQP (nu := 2) (qenv 3) qprm fuel) fuel ⟨x, r.u, safe P Real.sqrt, backup P⟩ =
        some (s', u, .optimal) := f2
      have f3' : loop P Real.sqrt (sys.withSolver (qpObject menv mprm fuel)) (ASIF.withQP (nu := 2) (qenv 3) qprm fuel) fuel n (k + 1) w' s'
        (step (sys.withSolver (qpObject menv mprm fuel)).LX P u (1 / 40) x) = some out := f3
      rw [loop, f1']
      simp only [f2', Option.bind_some, f3', Option.map_some]
    · rcases List.mem_cons.1 he with rfl | he
      · exact ⟨rfl, hx, hl, hb, fun a b => h4 a b r rfl⟩
      · exact i2 e he

/-- **C125, the program.** The program of the example with both modelled solvers runs to its end, for any number of turns, any desired trajectory of its form and from every state with
moderate speeds and without lateral speed: with the same result for all fuel of the model that is enough. Every call of the filter reports Optimal, the inputs respect the bounds up
to the absolute tolerance of its solver (with relative tolerance zero), the speeds stay moderate, and the states are those of the vehicle under the inputs. -/
theorem vehicle_runs {sys : Sys ℝ ℝ σ X (Fin 2 → ℝ) 6 2} (hv : VelPart sys.LX P) (had : AdPart sys.LX) (hrot : RotPart P) (hL : ∀ K, 4 ≤ K → K ≤ 5 → IsLGR sys.env K)
    (hS : Solves menv mprm) (hS' : Solves qenv qprm) (hq : Usual qprm) (hpol : qprm.polish = false) (her : qprm.epsRel = 0) (hea : qprm.epsAbs ≤ 1 / 100)
    (g0 x : X) (hx : Moderate P qprm.epsAbs x) (hl : P.vel x 1 = 0) (n : ℕ) :
    ∃ N out, (∀ fuel, N ≤ fuel → main P Real.sqrt (sys.withSolver (qpObject menv mprm fuel)) (ASIF.withQP (nu := 2) (qenv 3) qprm fuel) fuel g0 x n = some out) ∧
      out.length = n ∧ Flow sys.LX P x out ∧ ∀ e ∈ out, e.code = .optimal ∧ Moderate P qprm.epsAbs e.x ∧ P.vel e.x 1 = 0 ∧
        ((-(1 / 5) - qprm.epsAbs ≤ e.u 0 ∧ e.u 0 ≤ 1 / 2 + qprm.epsAbs) ∧ -(1 / 2) - qprm.epsAbs ≤ e.u 1 ∧ e.u 1 ≤ 1 / 2 + qprm.epsAbs) ∧
        (mprm.maxIter = none → mprm.maxTime = none → Verdict e.codeMpc) := by
  have hM : Makeable sys.env (args P) := ⟨by simp [args], by norm_num, by norm_num [args], hL⟩
  have key : ∀ (l : List (Op ℝ ℝ X (Fin 2 → ℝ) 6 2 2)) (k : ℕ) (w : World ℝ ℝ (QState ℝ) X (Fin 2 → ℝ) 6 2 2),
      Alive menv mprm sys k w → Legal sys.env k l → ∃ N w', (∀ fuel, N ≤ fuel → World.run (sys.real menv mprm fuel) l w = some w') ∧
        Alive menv mprm sys (l.foldl (fun j op => op.after j) k) w' := by
    intro l
    induction l with
    | nil => exact fun k w h _ => ⟨0, w, fun _ _ => rfl, h⟩
    | cons op l ih =>
      intro k w h hl
      obtain ⟨h1, h2⟩ := legal_cons.1 hl
      obtain ⟨N, r, hr, ha, -⟩ := step_always hS (fun _ => by norm_num) sys k w h op h1
      obtain ⟨M, w', e1, e2⟩ := ih (op.after k) r.1 ha h2
      refine ⟨max N M, w', fun fuel hf => ?_, e2⟩
      rw [World.run, hr fuel (le_trans (le_max_left _ _) hf), Option.bind_some, e1 fuel (le_trans (le_max_right _ _) hf)]
  obtain ⟨M, w, h1, h2⟩ := key (setup sys.LX P g0) 0 World.empty ⟨fun _ => empty_inv, fun i o h => by simp [World.empty] at h, rfl⟩
    ⟨hM, by norm_num, by norm_num, by norm_num, trivial⟩
  obtain ⟨N, out, a1, a2⟩ := loop_runs hv had hrot hS hS' hq hpol her hea n 0 w h2 _ (ASIF.kept_new (dyn P) prm) x hx hl
  have hmain : ∀ fuel, max M N ≤ fuel →
      main P Real.sqrt (sys.withSolver (qpObject menv mprm fuel)) (ASIF.withQP (nu := 2) (qenv 3) qprm fuel) fuel g0 x n = some out := fun fuel hf => by
    have e1 := h1 fuel (le_trans (le_max_left _ _) hf)
    unfold main
    change (World.run (sys.real menv mprm fuel) (setup sys.LX P g0) World.empty).bind _ = _
    rw [e1, Option.bind_some]
    exact a1 fuel (le_trans (le_max_right _ _) hf)
  obtain ⟨b1, b2⟩ := vehicle_flow _ n g0 x out (hmain _ le_rfl)
  refine ⟨max M N, out, hmain, b1, b2, fun e he => ?_⟩
  obtain ⟨d1, d2, d3, d4, d5⟩ := a2 e he
  exact ⟨d1, d2, d3, (bounds_iff sys.LX _ _).1 d4, d5⟩

end Verif.Vehicle
