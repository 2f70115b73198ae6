import Verif.Props.Costate
import Verif.Props.OCPNLPExamples

/-! # Least energy: an instance of C109 -/

namespace Verif.NLP

open Verif.Mesh Verif.Sparse Verif.MeshFn Verif.QP Verif.QPSpec Verif.Flatten

open scoped Polynomial

/-- `dx/dt = u`, least `∫ u²` from `x(0) = 0` to `x(1) = 1` at time 1. -/
noncomputable def energy : OCP ℝ 1 1 1 1 3 where
  theta := drE fun p _ => p (.q 0)
  f := drOf fun p _ => p (.u 0)
  g := drOf fun p _ => p (.u 0) * p (.u 0)
  cr := drOf fun p _ => p (.u 0)
  crl := fun _ => .fin (-2)
  cru := fun _ => .fin 2
  ce := drE fun p => ![p (.x0 0), p (.xf 0), p .tf]
  cel := ![.fin 0, .fin 1, .fin 1]
  ceu := ![.fin 0, .fin 1, .fin 1]

theorem energy_dr : IsDrOCP energy where
  theta := drE_isDr fun _ => by fun_prop
  f := drOf_isDr fun _ => by fun_prop
  g := drOf_isDr fun _ => by fun_prop
  cr := drOf_isDr fun _ => by fun_prop
  ce := drE_isDr fun j => by fin_cases j <;> simp <;> fun_prop

theorem energy_ham (p μ ν : Fin 1 → ℝ) : ham energy p μ ν = fun a => (p 0 + ν 0) * a (.u 0) + μ 0 * (a (.u 0) * a (.u 0)) := by
  funext a
  simp only [ham, Finset.univ_unique, Finset.sum_singleton, energy, drOf, Fin.default_eq_zero]
  ring

theorem energy_pd_ham (p μ ν : Fin 1 → ℝ) (v : Arg 1 1) (a : Arg 1 1 → ℝ) :
    pd (ham energy p μ ν) v a = if v = .u 0 then p 0 + ν 0 + 2 * μ 0 * a (.u 0) else 0 := by
  have d : Differentiable ℝ fun a : Arg 1 1 → ℝ => a (.u 0) := differentiable_coord _
  rw [energy_ham, pd_add ((d.const_mul _) a) (((d.fun_mul d).const_mul _) a), pd_const_mul _ (d a), pd_const_mul _ ((d.fun_mul d) a),
    pd_mul (d a) (d a), pd_coord]
  by_cases h : v = .u 0
  · rw [if_pos h, if_pos h.symm]; ring
  · rw [if_neg h, if_neg (fun h' => h h'.symm)]; ring

theorem energy_pd_end (η : Fin 3 → ℝ) (v : EArg 1 1) (e : EArg 1 1 → ℝ) :
    pd (endCost energy η) v e = match v with
      | .tf => η 2
      | .x0 _ => η 0
      | .xf _ => η 1
      | .q _ => 1 := by
  have hE : endCost energy η = fun e => e (.q 0) + (η 0 * e (.x0 0) + (η 1 * e (.xf 0) + η 2 * e .tf)) := by
    funext e
    simp only [endCost, energy, drE, Fin.sum_univ_three]
    simp
    ring
  have d : ∀ v : EArg 1 1, Differentiable ℝ fun a : EArg 1 1 → ℝ => a v := differentiable_coord
  rw [hE, pd_add (d _ e) ((((d _).const_mul _).fun_add (((d _).const_mul _).fun_add ((d _).const_mul _))) e),
    pd_add (((d _).const_mul _) e) ((((d _).const_mul _).fun_add ((d _).const_mul _)) e), pd_add (((d _).const_mul _) e) (((d _).const_mul _) e),
    pd_const_mul _ (d _ e), pd_const_mul _ (d _ e), pd_const_mul _ (d _ e), pd_coord, pd_coord, pd_coord, pd_coord]
  cases v with
  | tf => simp
  | x0 k => obtain rfl : k = 0 := Subsingleton.elim _ _; simp
  | xf k => obtain rfl : k = 0 := Subsingleton.elim _ _; simp
  | q k => obtain rfl : k = 0 := Subsingleton.elim _ _; simp

/-- The weights of the mesh are `1/8`, `3/8`, `1/2`. -/
theorem exMesh_scale : wScaling (lowEnv ℝ) exMesh = 2 := by
  have h : allWeights (lowEnv ℝ) exMesh = [1 / 8, 3 / 8, 1 / 2, 0] := by
    rw [allWeights_eq _ _ exMesh_ne]
    simp [exMesh, spans, localWeights, lowEnv, List.range_succ]
    norm_num
  rw [wScaling, h]
  simp only [List.foldl_cons, List.foldl_nil]
  norm_num

/-- The optimal solution `x = t`, `u = 1` with the multipliers of the nonlinear program. -/
noncomputable def energySol : NLPSol ℝ :=
  ⟨.optimal, 0, exVec exSol, ⟨nVars (nColloc exMesh) 1 1 1, fun _ => 0⟩, ⟨nVars (nColloc exMesh) 1 1 1, fun _ => 0⟩,
    ⟨nCons (nColloc exMesh) 1 1 1 3, fun r => if r < 3 then -1 else if r = 3 then 1 / 2 else if r < 7 then 0 else if r = 7 then 2 else if r = 8 then -2 else 1⟩, 1⟩

theorem energySol_lambda (c : NCon (nColloc exMesh) 1 1 1 3) : energySol.lambda.val c.pos = match c with
    | .dyn _ _ => -1
    | .int _ => 1 / 2
    | .cr _ _ => 0
    | .ce k => ![2, -2, 1] k := by
  have hN := exMesh_N
  cases c with
  | dyn i k => simp only [energySol, NCon.pos]; rw [if_pos (by have := i.2; have := k.2; omega)]
  | int k => simp only [energySol, NCon.pos]; rw [if_neg (by omega), if_pos (by have := k.2; omega)]
  | cr i k =>
    simp only [energySol, NCon.pos]
    rw [if_neg (by omega), if_neg (by omega), if_pos (by have := i.2; have := k.2; omega)]
  | ce k =>
    simp only [energySol, NCon.pos]
    fin_cases k
    · rw [if_neg (by omega), if_neg (by omega), if_neg (by omega), if_pos (by simp; omega)]; simp
    · rw [if_neg (by simp; omega), if_neg (by simp; omega), if_neg (by simp; omega), if_neg (by simp; omega), if_pos (by simp; omega)]; simp
    · rw [if_neg (by simp; omega), if_neg (by simp; omega), if_neg (by simp; omega), if_neg (by simp; omega), if_neg (by simp; omega)]; simp

theorem energySol_x (v : NVar (nColloc exMesh) 1 1 1) : held (nColloc exMesh) 1 1 1 energySol.x v = exSol v := exVec_val _ v

theorem energySol_tf : energySol.x.val 0 = 1 := energySol_x .tf

/-- **C109, violated.** The least energy problem: the program's solution is feasible and stationary; the multipliers `lambda_dyn = -1`, `lambda_q = 1/2`
come back, but those of the problem are `-2` and `1`: the returned ones do not satisfy the conditions of the problem. -/
theorem nlp_costates_violated :
    Feasible energy (lowEnv ℝ) exMesh (held (nColloc exMesh) 1 1 1 energySol.x) ∧
    ∃ (o : OCPSol ℝ 1 1 1 1 3) (s : Extremal 1 1 1 1 3), nlpsolToOcpsol 1 1 1 1 3 (lowEnv ℝ) exMesh energySol = some o ∧ Reads o s ∧
      Stationary energy (lowEnv ℝ) exMesh 0 energySol ∧ (∀ i : Fin (nColloc exMesh), s.ldyn (s.tf * tauAt (lowEnv ℝ) exMesh i) 0 = -1) ∧ s.ldyn s.tf 0 = -1 ∧ s.lq 0 = 1 / 2 ∧
      Costates energy (lowEnv ℝ) exMesh 1 0 (s.scale 2) (fun _ _ => Polynomial.C (-2)) ∧
      ∀ L ζ, ¬Costates energy (lowEnv ℝ) exMesh 1 ζ s L := by
  have hL : ∀ K, 1 ≤ K → K ≤ 1 + 1 → IsLGR (lowEnv ℝ) K := fun K h1 h2 => lowEnv_lgr K h1 h2
  have hN := exMesh_N
  have hz : held (nColloc exMesh) 1 1 1 energySol.x = exSol := funext energySol_x
  refine ⟨?_, ?_⟩
  · rw [hz]
    refine ⟨zero_le_one, exSol_feasible.dynamics, fun k => ?_, fun i k => ?_, fun k => ?_⟩
    · have := exSol_feasible.integrals k
      simp only [exOCP, energy, drOf, pt, exSol, mul_one] at this ⊢
      exact this
    · simp only [energy, drOf, pt, exSol, lower, upper]
      norm_num
    · obtain ⟨t0, tN, -⟩ := tauAt_bounds (lowEnv ℝ) le_rfl exMesh exMesh_valid hL
      fin_cases k
      · simp [energy, drE, ends, exSol, lower, upper, t0]
      · simp [energy, drE, ends, exSol, lower, upper, tN]
      · simp [energy, drE, ends, exSol, lower, upper]
  · have hx : energySol.x.size = nVars (nColloc exMesh) 1 1 1 := rfl
    have hl : energySol.lambda.size = nCons (nColloc exMesh) 1 1 1 3 := rfl
    have htf : 0 < energySol.x.val 0 := by rw [energySol_tf]; exact one_pos
    obtain ⟨o, s, L, g1, g2, g3, g4, g5⟩ := ocpsol_extremal (nx := 1) (nu := 1) (nq := 1) (ncr := 1) (nce := 3) (lowEnv ℝ) lowEnv_lagrange lowEnv_search
      le_rfl exMesh exMesh_valid hL energySol hx hl htf
    have hstf : s.tf = 1 := by rw [g3.tf, energySol_tf]
    have hld : ∀ (i : Fin (nColloc exMesh)) l, s.ldyn (s.tf * tauAt (lowEnv ℝ) exMesh i) l = -1 := by
      intro i l
      rw [g3.ldyn i]
      exact energySol_lambda (.dyn i l)
    have hlr : ∀ (i : Fin (nColloc exMesh)) l, s.lcr (s.tf * tauAt (lowEnv ℝ) exMesh i) l = 0 := by
      intro i l
      rw [g3.lcr i]
      exact energySol_lambda (.cr i l)
    have hlq : ∀ k, s.lq k = 1 / 2 := fun k => by rw [g3.lq k]; exact energySol_lambda (.int k)
    have hlc : s.lce = ![2, -2, 1] := funext fun k => by rw [g3.lce k]; exact energySol_lambda (.ce k)
    have hP : Pieces (lowEnv ℝ) exMesh s fun _ _ => Polynomial.C (-1) := by
      refine ⟨fun p hp l => ?_, fun i p _ _ _ l => ?_⟩
      · rw [Polynomial.natDegree_C]
        exact exMesh_K _ (mem_spans_fst hp)
      · rw [Polynomial.eval_C, hld i l]
    have hlast : ∀ p ∈ spans 1 exMesh, p.2 = 1 → ∀ τ, p.1.tau0 ≤ τ → τ ≤ 1 → ∀ l, s.ldyn (s.tf * τ) l = (Polynomial.C (-1) : ℝ[X]).eval τ := by
      intro p hp k τ k1 k2 l
      rw [g5 p hp k τ k1 k2 l, pieces_unique (lowEnv ℝ) exMesh exMesh_valid hL g4 hP p hp l]
    have hfin : ∀ l, s.ldyn s.tf l = -1 := by
      intro l
      have := hlast (⟨1, 1 / 2⟩, 1) (by simp [exMesh, spans]) rfl 1 (by norm_num) le_rfl l
      rw [mul_one, Polynomial.eval_C] at this
      exact this
    obtain ⟨t0, tN, -⟩ := tauAt_bounds (lowEnv ℝ) le_rfl exMesh exMesh_valid hL
    have hld0 : ∀ l, s.ldyn 0 l = -1 := by
      intro l
      have := hld ⟨0, by omega⟩ l
      simp only [t0, mul_zero] at this
      exact this
    have hlr0 : ∀ l, s.lcr 0 l = 0 := by
      intro l
      have := hlr ⟨0, by omega⟩ l
      simp only [t0, mul_zero] at this
      exact this
    have hu : ∀ i : Fin (nColloc exMesh), s.at' (tauAt (lowEnv ℝ) exMesh i) (.u 0) = 1 := by
      intro i
      have := congrFun (g3.u i) 0
      rw [energySol_x] at this
      exact this
    have hC : Costates energy (lowEnv ℝ) exMesh 2 0 s fun _ _ => Polynomial.C (-1) := by
      refine ⟨fun i p hp k1 k2 l => ?_, fun i p hp p' hp' k1 k2 l => ?_, fun p hp k l => ?_, fun l => ?_, fun k => ?_, fun i l => ?_, ?_⟩
      · simp [Extremal.H, energy_pd_ham]
      · simp [Extremal.H, energy_pd_ham]
      · rw [energy_pd_end, hlc, hld0]
        simp [Extremal.H, energy_pd_ham]
      · rw [energy_pd_end, hlc, hfin]; simp
      · rw [energy_pd_end, hlq]; norm_num
      · obtain rfl : l = 0 := Subsingleton.elim _ _
        rw [Extremal.H, energy_pd_ham, if_pos rfl, hu, hld, hlr, hlq]
        norm_num
      · have e : ∀ i : Fin (nColloc exMesh), wAt (lowEnv ℝ) exMesh i * (ham energy (s.ldyn (s.tf * tauAt (lowEnv ℝ) exMesh i)) s.lq 0 (s.at' (tauAt (lowEnv ℝ) exMesh i)) +
            s.tf * tauAt (lowEnv ℝ) exMesh i * pd (s.H energy (tauAt (lowEnv ℝ) exMesh i)) .t (s.at' (tauAt (lowEnv ℝ) exMesh i))) =
            wAt (lowEnv ℝ) exMesh i * (-1 / 2) := by
          intro i
          rw [Extremal.H, energy_pd_ham, if_neg (by simp), energy_ham]
          simp only [hu, hld, hlq, Pi.zero_apply]
          norm_num
        rw [Finset.sum_congr rfl fun i _ => e i, ← Finset.sum_mul, energy_pd_end, hlc]
        have hs : ∑ i : Fin (nColloc exMesh), wAt (lowEnv ℝ) exMesh i = 1 := by
          have := exSol_feasible.integrals 0
          simp only [exOCP, drOf, pt, exSol, mul_one, one_mul] at this
          exact this.symm
        rw [hs]
        simp
        norm_num
    have hst := (stationary_iff_costates (lowEnv ℝ) lowEnv_lagrange lowEnv_search le_rfl exMesh exMesh_valid hL energy energy_dr energySol htf s _ g3 hP hlast 0).2
      (by rw [exMesh_scale]; exact hC)
    have hsc := (costates_scale energy_dr (lowEnv ℝ) exMesh (two_ne_zero) 0 s _).1 hC
    refine ⟨o, s, g1, g2, hst, fun i => hld i 0, hfin 0, hlq 0, ?_, fun L' ζ => ?_⟩
    · have e : (Polynomial.C (-2) : ℝ[X]) = Polynomial.C 2 * Polynomial.C (-1) := by rw [← Polynomial.C_mul]; norm_num
      rw [e]
      exact hsc
    · refine nlp_costates_wrong (lowEnv ℝ) le_rfl exMesh exMesh_valid hL (by omega) energy s _ L' 0 ζ (by rw [exMesh_scale]; exact hC) (.inr ⟨0, ?_⟩)
      rw [energy_pd_end]
      norm_num

end Verif.NLP
