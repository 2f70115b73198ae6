import Verif.Props.Vehicle
import Verif.Props.MPCSolvable
import Verif.Proofs.LieGlobal
import Mathlib.Analysis.SpecialFunctions.Sqrt
import Mathlib.Analysis.Calculus.Deriv.Abs

/-! # The vehicle with predictive control and a safety filter: the barrier and the predictive controller (C124) -/

set_option linter.unusedSectionVars false

namespace Verif.Vehicle

open scoped Matrix
open Verif.Lie Verif.QPSpec Verif.MPC Verif.Mesh Verif.Sparse Verif.MeshFn Verif.Flatten Verif.NLP Verif.OQP
open Verif.QP (Ext Status)

variable {X : Type*} {L : LieOps X ℝ 6} {P : Parts X ℝ}

/-! ## The barrier -/

/-- The barrier is the distance to the centre of the obstacle less 7/10. -/
theorem safe_dist (t : ℝ) (x : X) (j) : (safe P Real.sqrt).h t x j = √(dir P x 0 ^ 2 + dir P x 1 ^ 2) - 7 / 10 := by
  have e : dir P x ⬝ᵥ dir P x = dir P x 0 ^ 2 + dir P x 1 ^ 2 := by
    simp [dotProduct, Fin.sum_univ_two]; ring
  change dir P x ⬝ᵥ normalized Real.sqrt (dir P x) - 7 / 10 = _
  unfold normalized
  split_ifs with h
  · have h2 : ∀ c : ℝ, dir P x ⬝ᵥ (fun k => dir P x k / c) = (dir P x ⬝ᵥ dir P x) / c := fun c => by
      simp only [dotProduct, Fin.sum_univ_two]; ring
    rw [h2, Real.div_sqrt, e]
  · have h2 : dir P x ⬝ᵥ dir P x = 0 := le_antisymm (not_lt.1 h) (by rw [e]; positivity)
    rw [← e, h2, Real.sqrt_zero]

theorem dir_deriv (hp : PosPart L P) (x : X) (a : Fin 6 → ℝ) (k : Fin 2) :
    HasDerivAt (fun s : ℝ => dir P (L.rplus x (s • a)) k) ((P.rot x *ᵥ ![a 0, a 1]) k) 0 := (hp x a k).sub_const _

/-- **C124, the gradient.** The derivative of the barrier that the filter uses is right except at the centre of the obstacle. -/
theorem safe_deriv (hp : PosPart L P) (h0 : ∀ x, L.rplus x 0 = x) (t : ℝ) (x : X) (hx : dir P x ≠ 0) (a : Fin 6 → ℝ) (j) :
    HasDerivAt (fun s : ℝ => (safe P Real.sqrt).h t (L.rplus x (s • a)) j) (((safe P Real.sqrt).dx t x *ᵥ a) j) 0 := by
  have hpos : 0 < dir P x 0 ^ 2 + dir P x 1 ^ 2 := by
    by_contra hn
    apply hx
    have h1 : dir P x 0 = 0 := by nlinarith [sq_nonneg (dir P x 0), sq_nonneg (dir P x 1)]
    have h2 : dir P x 1 = 0 := by nlinarith [sq_nonneg (dir P x 0), sq_nonneg (dir P x 1)]
    funext k
    fin_cases k
    · exact h1
    · exact h2
  have e : dir P x ⬝ᵥ dir P x = dir P x 0 ^ 2 + dir P x 1 ^ 2 := by
    simp [dotProduct, Fin.sum_univ_two]; ring
  have ez : L.rplus x ((0 : ℝ) • a) = x := by rw [zero_smul, h0]
  have h1 := ((dir_deriv hp x a 0).pow 2).add ((dir_deriv hp x a 1).pow 2)
  have h2 := (h1.sqrt (by simp only [Pi.add_apply, Pi.pow_apply, ez]; exact hpos.ne')).sub_const (7 / 10)
  refine (h2.congr_of_eventuallyEq (Filter.Eventually.of_forall fun s => safe_dist t _ j)).congr_deriv ?_
  have hd : (((safe P Real.sqrt).dx t x *ᵥ a) j) = (normalized Real.sqrt (dir P x) ᵥ* P.rot x) 0 * a 0 + (normalized Real.sqrt (dir P x) ᵥ* P.rot x) 1 * a 1 := by
    simp [Matrix.mulVec, dotProduct, safe, Fin.sum_univ_succ]
  rw [hd]
  have hn : ∀ k, normalized Real.sqrt (dir P x) k = dir P x k / √(dir P x 0 ^ 2 + dir P x 1 ^ 2) := fun k => by
    unfold normalized
    rw [if_pos (by rw [e]; exact hpos), e]
  simp only [Pi.add_apply, Pi.pow_apply, ez]
  simp [Matrix.vecMul, Matrix.mulVec, dotProduct, Fin.sum_univ_two, hn]
  have := (Real.sqrt_pos.2 hpos).ne'
  field_simp
  ring

/-- At the centre the filter takes 0, but the barrier has no derivative in any direction that moves the vehicle. -/
theorem safe_centre (hp : PosPart L P) (h0 : ∀ x, L.rplus x 0 = x) (t : ℝ) (x : X) (hx : dir P x = 0) (a : Fin 6 → ℝ) (ha : P.rot x *ᵥ ![a 0, a 1] ≠ 0) (j) :
    ((safe P Real.sqrt).dx t x *ᵥ a) j = 0 ∧ ¬ DifferentiableAt ℝ (fun s : ℝ => (safe P Real.sqrt).h t (L.rplus x (s • a)) j) 0 := by
  have ez : L.rplus x ((0 : ℝ) • a) = x := by rw [zero_smul, h0]
  constructor
  · simp [Matrix.mulVec, dotProduct, safe, Fin.sum_univ_succ, hx, normalized]
  · intro hd
    set h : ℝ → ℝ := fun s => (safe P Real.sqrt).h t (L.rplus x (s • a)) j + 7 / 10 with hh
    have hd' : DifferentiableAt ℝ h 0 := hd.add_const _
    have hform : ∀ s, h s = √(dir P (L.rplus x (s • a)) 0 ^ 2 + dir P (L.rplus x (s • a)) 1 ^ 2) := fun s => by
      rw [hh]; simp only []; rw [safe_dist]; ring
    have h00 : h 0 = 0 := by rw [hform, ez, hx]; simp
    have hmin : IsLocalMin h 0 := Filter.Eventually.of_forall fun s => by rw [h00, hform]; exact Real.sqrt_nonneg _
    have hz : HasDerivAt h 0 0 := by
      have := hd'.hasDerivAt
      rwa [hmin.deriv_eq_zero] at this
    apply ha
    have hk : ∀ k, HasDerivAt (fun s : ℝ => dir P (L.rplus x (s • a)) k) 0 0 := fun k => by
      rw [hasDerivAt_iff_isLittleO] at hz ⊢
      simp only [h00, sub_zero, smul_zero, ez, hx, Pi.zero_apply] at hz ⊢
      refine Asymptotics.IsBigO.trans_isLittleO (Asymptotics.IsBigO.of_bound 1 (Filter.Eventually.of_forall fun s => ?_)) hz
      rw [one_mul, Real.norm_eq_abs, Real.norm_eq_abs, hform, abs_of_nonneg (Real.sqrt_nonneg _), ← Real.sqrt_sq_eq_abs]
      refine Real.sqrt_le_sqrt ?_
      fin_cases k
      · exact le_add_of_nonneg_right (sq_nonneg _)
      · exact le_add_of_nonneg_left (sq_nonneg _)
    funext k
    exact (dir_deriv hp x a k).unique (hk k)

/-! ## The predictive controller -/

variable {σ U 𝔸 𝔹 : Type*} [NormedRing 𝔸] [NormedAlgebra ℝ 𝔸] [FiniteDimensional ℝ 𝔸] [CompleteSpace 𝔸] [NormedRing 𝔹] [NormedAlgebra ℝ 𝔹]
  [FiniteDimensional ℝ 𝔹] [CompleteSpace 𝔹]
  {mat : X → 𝔸} {hat : (Fin 6 → ℝ) →ₗ[ℝ] 𝔸} {matU : (Fin 2 → ℝ) → 𝔹} {hatU : (Fin 2 → ℝ) →ₗ[ℝ] 𝔹}

theorem xdes_vel (hv : VelPart L P) (g0 : X) (t : ℝ) : P.vel (xdes L g0 t) = P.vel g0 := by
  unfold xdes
  rw [hv]
  funext k
  fin_cases k <;> simp [vdes]

/-- The desired velocity is the velocity of the desired state. -/
theorem xdes_deriv (hL : IsLie L mat hat) (g0 : X) (t : ℝ) : HasDerivAt (fun s => mat (xdes L g0 s)) (mat (xdes L g0 t) * hat vdes) t := by
  have h1 : ∀ s, mat (xdes L g0 s) = mat g0 * NormedSpace.exp (s • hat vdes) := fun s => by
    unfold xdes
    rw [hL.rplus, map_smul]
  simp only [h1]
  have h2 := (hasDerivAt_exp_smul_const (𝕂 := ℝ) (hat vdes) t).const_mul (mat g0)
  rwa [← mul_assoc] at h2

/-- **C124, the desired input.** At the desired speed the input 0, which the controller is told to deviate little from, does not hold the desired trajectory; the input
(1/5, 4/25) does. -/
theorem desired_input (hv : VelPart L P) (g0 : X) (hg : P.vel g0 = ![1, 0, 2 / 5]) (t : ℝ) (u : Fin 2 → ℝ) : f P (xdes L g0 t) u = vdes ↔ u = ![1 / 5, 4 / 25] := by
  unfold f
  rw [xdes_vel hv, hg]
  constructor
  · intro h
    have h3 := congrFun h 3
    have h5 := congrFun h 5
    simp [vdes] at h3 h5
    funext k
    fin_cases k
    · simp; linarith
    · simp; linarith
  · rintro rfl
    funext k
    fin_cases k <;> simp [vdes]
    norm_num

variable {sys : Sys ℝ ℝ σ X (Fin 2 → ℝ) 6 2}

theorem f_ufn (hv : VelPart sys.LX P) (hu : ∀ u v, sys.LU.rplus u v = u + v) : IsUFn sys (args P).f := by
  intro t x u k
  have e : (fun δ : Arg 6 2 → ℝ => near sys.LX sys.LU (args P).f t x u δ k) = fun δ => ![P.vel x 0 + δ (.x 3), P.vel x 1 + δ (.x 4), P.vel x 2 + δ (.x 5),
      -(1 / 5) * (P.vel x 0 + δ (.x 3)) + (u 0 + δ (.u 0)), 0, -(2 / 5) * (P.vel x 2 + δ (.x 5)) + (u 1 + δ (.u 1))] k := by
    funext δ
    change f P (sys.LX.rplus x fun l => δ (.x l)) (sys.LU.rplus u fun l => δ (.u l)) k = _
    unfold f
    rw [hv, hu]
    fin_cases k <;> simp
  rw [e]
  have hc : ∀ (c : ℝ) (a : Arg 6 2), HasPd (fun δ : Arg 6 2 → ℝ => c + δ a) _ 0 := fun c a => (Flatten.hasPd_const c (0 : Arg 6 2 → ℝ)).add (Flatten.hasPd_coord a 0)
  have hm : ∀ (d c : ℝ) (a : Arg 6 2), HasPd (fun δ : Arg 6 2 → ℝ => d * (c + δ a)) _ 0 := fun d c a => (Flatten.hasPd_const d (0 : Arg 6 2 → ℝ)).mul (hc c a)
  fin_cases k
  · refine (hc (P.vel x 0) (.x 3)).of_eq fun a => ?_
    cases a with
    | t => simp
    | x l => fin_cases l <;> simp [args, fx]
    | u l => fin_cases l <;> simp [args, fu]
  · refine (hc (P.vel x 1) (.x 4)).of_eq fun a => ?_
    cases a with
    | t => simp
    | x l => fin_cases l <;> simp [args, fx]
    | u l => fin_cases l <;> simp [args, fu]
  · refine (hc (P.vel x 2) (.x 5)).of_eq fun a => ?_
    cases a with
    | t => simp
    | x l => fin_cases l <;> simp [args, fx]
    | u l => fin_cases l <;> simp [args, fu]
  · refine ((hm (-(1 / 5)) (P.vel x 0) (.x 3)).add (hc (u 0) (.u 0))).of_eq fun a => ?_
    cases a with
    | t => simp
    | x l => fin_cases l <;> simp [args, fx]
    | u l => fin_cases l <;> simp [args, fu]
  · refine (Flatten.hasPd_const 0 (0 : Arg 6 2 → ℝ)).of_eq fun a => ?_
    cases a with
    | t => simp
    | x l => fin_cases l <;> simp [args, fx]
    | u l => fin_cases l <;> simp [args, fu]
  · refine ((hm (-(2 / 5)) (P.vel x 2) (.x 5)).add (hc (u 1) (.u 1))).of_eq fun a => ?_
    cases a with
    | t => simp
    | x l => fin_cases l <;> simp [args, fx]
    | u l => fin_cases l <;> simp [args, fu]

theorem cr_ufn (hu : ∀ u v, sys.LU.rplus u v = u + v) : IsUFn sys (args P).cr := by
  intro t x u k
  have e : (fun δ : Arg 6 2 → ℝ => near sys.LX sys.LU (args P).cr t x u δ k) = fun δ => u k + δ (.u k) := by
    funext δ
    change sys.LU.rplus u (fun l => δ (.u l)) k = _
    rw [hu]
    rfl
  rw [e]
  refine ((Flatten.hasPd_const (u k) (0 : Arg 6 2 → ℝ)).add (Flatten.hasPd_coord (Arg.u k) 0)).of_eq fun a => ?_
  cases a with
  | t => simp
  | x l => simp [args]
  | u l => fin_cases k <;> fin_cases l <;> simp [args, Matrix.one_apply]

theorem bounded (hG : sys.IsLie mat hat matU hatU) (hv : VelPart sys.LX P) (had : AdPart sys.LX) (hu : ∀ u v, sys.LU.rplus u v = u + v) (g0 : X)
    (hg : P.vel g0 = ![1, 0, 2 / 5]) (t : ℝ) : Bounded sys (args P) (xdes sys.LX g0) (fun _ => vdes) (fun _ => 0) t (fun _ => 1) 1 := by
  refine bounded_of hG (f_ufn hv hu) fun s τ e => ?_
  have e1 : ∀ k l, (args P).f.dx s (xdes sys.LX g0 τ) 0 k l = fx k l := fun _ _ => rfl
  have e2 : (args P).f.val s (xdes sys.LX g0 τ) 0 = ![1, 0, 2 / 5, -(1 / 5), 0, -(4 / 25)] := by
    change f P (xdes sys.LX g0 τ) 0 = _
    unfold f
    rw [xdes_vel hv, hg]
    funext k
    fin_cases k <;> simp
    norm_num
  have had' : ∀ a b k, (sys.LX.ad a *ᵥ b) k = (![-a 2 * b 1 + a 1 * b 2, a 2 * b 0 - a 0 * b 2, 0, 0, 0, 0] : Fin 6 → ℝ) k := fun a b k => congrFun (had a b) k
  have e3 : (![1, 0, 2 / 5, -(1 / 5), 0, -(4 / 25)] + vdes : Fin 6 → ℝ) = ![2, 0, 4 / 5, -(1 / 5), 0, -(4 / 25)] := by
    funext k
    fin_cases k <;> simp [vdes] <;> norm_num
  have e4 : ∀ k, ∑ l, (fx k l + 1 / 2 * (sys.LX.ad (Pi.single l 1) *ᵥ (![1, 0, 2 / 5, -(1 / 5), 0, -(4 / 25)] + vdes)) k) * e l =
      ![e 3 + 2 / 5 * e 1, e 4 + e 2 - 2 / 5 * e 0, e 5, -(1 / 5) * e 3, 0, -(2 / 5) * e 5] k := by
    intro k
    rw [e3]
    simp only [had', Fin.sum_univ_six]
    fin_cases k <;> simp [fx, Pi.single_apply, Fin.ext_iff] <;> ring
  simp only [e1, e2, e4, Fin.sum_univ_six]
  simp
  nlinarith [sq_nonneg (e 0 - e 3), sq_nonneg (e 1 - e 4), sq_nonneg (e 1 - e 2), sq_nonneg (e 2 - e 5), sq_nonneg (e 0), sq_nonneg (e 3), sq_nonneg (e 4), sq_nonneg (e 5)]

theorem room (hG : sys.IsLie mat hat matU hatU) (hu : ∀ u v, sys.LU.rplus u v = u + v) (hd : sys.dfltU = 0) (xd : ℝ → X) (t : ℝ) : InputRoom sys (args P) xd (fun _ => 0) t (1 / 2) := by
  intro i
  refine ⟨0, fun e k s hs => ?_⟩
  rw [if_neg (by simp [args]), expand_sum hG (cr_ufn hu)]
  rw [abs_le] at hs
  simp [Within, lower, upper, args, bothArg, hd]
  exact ⟨by linarith [hs.1], by linarith [hs.2]⟩

/-- What is assumed of the groups: those of `Bundle<SE2, R^3>` and of inputs in the plane satisfy it (`VehicleExamples.lean`). -/
structure Good (sys : Sys ℝ ℝ σ X (Fin 2 → ℝ) 6 2) (P : Parts X ℝ) (mat : X → 𝔸) (hat : (Fin 6 → ℝ) →ₗ[ℝ] 𝔸) (matU : (Fin 2 → ℝ) → 𝔹) (hatU : (Fin 2 → ℝ) →ₗ[ℝ] 𝔹) : Prop where
  lie : sys.IsLie mat hat matU hatU
  vel : VelPart sys.LX P
  ad : AdPart sys.LX
  flat : ∀ u v, sys.LU.rplus u v = u + v
  dflt : sys.dfltU = 0

/-- **C124, the predictive controller.** At every time and from every state the problem of the predictive controller has an admissible deviation. -/
theorem vehicle_admissible (hG : Good sys P mat hat matU hatU) (hL : ∀ K, 4 ≤ K → K ≤ 5 → IsLGR sys.env K) (hB : IsLagrange sys.env) (g0 : X)
    (hg : P.vel g0 = ![1, 0, 2 / 5]) (t : ℝ) (x : X) : ∃ z, Admissible sys (args P) (xdes sys.LX g0) (fun _ => vdes) (fun _ => 0) t x z :=
  mpc_admissible sys (args P) hG.lie (f_ufn hG.vel hG.flat) (by simp [args]) hL hB (by norm_num [args]) _ _ _ t (fun _ => one_pos)
    (bounded hG.lie hG.vel hG.ad hG.flat g0 hg t) (by norm_num [args])
    (fun i => (room hG.lie hG.flat hG.dflt (xdes sys.LX g0) t i).imp fun v hv e k s hs => hv e k s (hs.trans (by norm_num))) x

/-- **C124, the solver of the predictive controller.** At every time and from every state there are tolerances with which every call of the controller of the example,
after any calls, returns and reports Optimal. -/
theorem vehicle_mpc_solved (hG : Good sys P mat hat matU hatU) (hL : ∀ K, 4 ≤ K → K ≤ 5 → IsLGR sys.env K) (hB : IsLagrange sys.env) (g0 : X)
    (hg : P.vel g0 = ![1, 0, 2 / 5]) (t : ℝ) (x : X) : ∃ e0 : ℝ, 0 < e0 ∧ ∀ (env : (n : ℕ) → QP.Env ℝ n) (prm : QP.Params ℝ) (fuel : ℕ)
      (l : List (Op ℝ ℝ X (Fin 2 → ℝ) 6 2 2)) (w : World ℝ ℝ (QState ℝ) X (Fin 2 → ℝ) 6 2 2) (i : ℕ), Solves env prm → prm.polish = false → prm.maxIter = none → prm.maxTime = none →
      prm.epsRel = 0 → prm.epsAbs ≤ e0 → prm.epsPrimalInf ≤ e0 → prm.epsDualInf ≤ e0 →
      World.run (sys.withSolver (qpObject env prm fuel)) l World.empty = some w → w.Follows i (args P) (xdes sys.LX g0) (fun _ => vdes) (fun _ => 0) →
      ∃ N w' r, (∀ fuel', N ≤ fuel' → w.step (sys.withSolver (qpObject env prm fuel')) (.call i t x) = some (w', some r)) ∧ r.code = .optimal := by
  obtain ⟨C, e0, z, -, he0, h⟩ := mpc_input_limits_solved sys (by norm_num) (args P) hG.lie (f_ufn hG.vel hG.flat) (cr_ufn hG.flat) (by simp [args]) hL hB (by norm_num [args])
    (by norm_num) _ _ _ t (fun _ => one_pos) (bounded hG.lie hG.vel hG.ad hG.flat g0 hg t) (by norm_num [args]) (by norm_num) (room hG.lie hG.flat hG.dflt (xdes sys.LX g0) t) x
  refine ⟨e0, he0, fun env prm fuel l w i h1 h2 h3 h4 h5 h6 h7 h8 h9 h10 => ?_⟩
  obtain ⟨N, w', r, g1, g2, -⟩ := h env prm fuel l w i h1 h2 h3 h4 h5 h6 h7 h8 h9 h10
  exact ⟨N, w', r, g1, g2⟩

/-- Calls of the controller. -/
def OnlyCalls (l : List (Op ℝ ℝ X (Fin 2 → ℝ) 6 2 2)) : Prop := ∀ op ∈ l, ∃ t x, op = .call 0 t x

theorem calls_last {l : List (Op ℝ ℝ X (Fin 2 → ℝ) 6 2 2)} (hl : OnlyCalls l) : made l = [] ∧ (∀ d, lastX 0 l d = d) ∧ ∀ d, lastU 0 l d = d := by
  induction l with
  | nil => exact ⟨rfl, fun _ => rfl, fun _ => rfl⟩
  | cons op l ih =>
    obtain ⟨t, x, rfl⟩ := hl op (by simp)
    exact ih fun o ho => hl o (List.mem_cons_of_mem _ ho)

theorem relDes_zero {G : Type*} (f : ℝ → G) : relDes (fun a b : ℝ => a - b) f 0 = f := by
  funext s
  simp [relDes]

/-- **C124, what the controller follows.** After the calls before the loop and any calls of the controller, it follows the desired trajectory of the example. -/
theorem vehicle_follows (g0 : X) {l : List (Op ℝ ℝ X (Fin 2 → ℝ) 6 2 2)} (hl : OnlyCalls l) {w : World ℝ ℝ σ X (Fin 2 → ℝ) 6 2 2}
    (hw : World.run sys (setup sys.LX P g0 ++ l) World.empty = some w) : w.Follows 0 (args P) (fun t => sys.LX.rplus g0 (t • ![1, 0, 2 / 5, 0, 0, 0])) (fun _ => ![1, 0, 2 / 5, 0, 0, 0]) (fun _ => 0) := by
  obtain ⟨h1, h2, h3⟩ := calls_last hl
  have := mpc_follows sys (setup sys.LX P g0 ++ l) (fun op ho => by
    rcases List.mem_append.1 ho with h | h
    · simp only [setup, List.mem_cons, List.not_mem_nil, or_false] at h
      rcases h with rfl | rfl | rfl | rfl <;> rfl
    · obtain ⟨t, x, rfl⟩ := hl op h
      rfl) w hw 0 (args P) (by rw [made_append, h1]; rfl)
  rw [lastX_append, lastU_append, h2, h3] at this
  simp only [setup, lastX, lastU, Op.setXRel, Op.setURel, relDes_zero, if_true] at this
  exact this

/-- **C124, the calls in the program.** At every time and from every state there are tolerances with which the call of the controller in the program of the example, after any number of
calls, returns and reports Optimal. -/
theorem vehicle_program_solved (hG : Good sys P mat hat matU hatU) (hL : ∀ K, 4 ≤ K → K ≤ 5 → IsLGR sys.env K) (hB : IsLagrange sys.env) (g0 : X)
    (hg : P.vel g0 = ![1, 0, 2 / 5]) (t : ℝ) (x : X) : ∃ e0 : ℝ, 0 < e0 ∧ ∀ (env : (n : ℕ) → QP.Env ℝ n) (prm : QP.Params ℝ) (fuel : ℕ)
      (l : List (Op ℝ ℝ X (Fin 2 → ℝ) 6 2 2)) (w : World ℝ ℝ (QState ℝ) X (Fin 2 → ℝ) 6 2 2), OnlyCalls l → Solves env prm → prm.polish = false → prm.maxIter = none →
      prm.maxTime = none → prm.epsRel = 0 → prm.epsAbs ≤ e0 → prm.epsPrimalInf ≤ e0 → prm.epsDualInf ≤ e0 →
      World.run (sys.withSolver (qpObject env prm fuel)) (setup sys.LX P g0 ++ l) World.empty = some w →
      ∃ N w' r, (∀ fuel', N ≤ fuel' → w.step (sys.withSolver (qpObject env prm fuel')) (.call 0 t x) = some (w', some r)) ∧ r.code = .optimal := by
  obtain ⟨e0, h0, h⟩ := vehicle_mpc_solved hG hL hB g0 hg t x
  refine ⟨e0, h0, fun env prm fuel l w hl h1 h2 h3 h4 h5 h6 h7 h8 hw => h env prm fuel _ w 0 h1 h2 h3 h4 h5 h6 h7 h8 hw ?_⟩
  exact vehicle_follows (sys := sys.withSolver (qpObject env prm fuel)) g0 hl hw

end Verif.Vehicle
