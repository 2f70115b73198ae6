import Verif.Proofs.SE2NLP
import Verif.Proofs.MeshFnSlope
import Verif.Props.MeshLoop
import Verif.Props.Ipopt

/-! # The nonlinear program of the problem on SE(2) (C129) -/

namespace Verif.SE2

open Verif.Mesh Verif.Sparse Verif.MeshFn Verif.NLP Verif.Lie Verif.Flatten Verif.QP Verif.QPSpec Verif.DI Verif.Ipopt Polynomial

open scoped Matrix

section

variable {X 𝔸 : Type*} [NormedRing 𝔸] [NormedAlgebra ℝ 𝔸] [FiniteDimensional ℝ 𝔸] [CompleteSpace 𝔸] {P : PoseOps X ℝ} {mat : X → 𝔸}
  {hat : (Fin 5 → ℝ) →ₗ[ℝ] 𝔸} {idX : X}

/-! ### Derivatives -/

/-- **C129, derivatives.** All first derivatives that the program gives to Ipopt for the objective, the limits, the dynamics, the integral and the end constraints of the
flattened problem are right: those of the objective and the limits everywhere, those of the dynamics at angles less than a full turn, those of the
integral and the end constraints where the difference to the desired motion and the logarithm at the start are regular. -/
theorem se2_flat_derivatives (h : IsPose P mat hat) (hp : IsPlane P) :
    IsDrE (flatSe2 idX P (vec ℝ 2)).theta ∧ IsDr (flatSe2 idX P (vec ℝ 2)).cr ∧
      (∀ p : Arg 5 2 → ℝ, |p (.x 2)| < 2 * Real.pi → ∀ j, HasPd (fun p => (flatSe2 idX P (vec ℝ 2)).f.val p j)
        (fun a => ((flatSe2 idX P (vec ℝ 2)).f.jac p).val j a.pos) p) ∧
      (∀ p : Arg 5 2 → ℝ, Reg P mat hat (p .t) (P.rplus idX fun k => p (.x k)) → HasPd (fun p => (flatSe2 idX P (vec ℝ 2)).g.val p 0)
        (fun a => ((flatSe2 idX P (vec ℝ 2)).g.jac p).val 0 a.pos) p) ∧
      ∀ p : EArg 5 1 → ℝ, RegLog P mat hat (P.rplus idX fun k => p (.x0 k)) → ∀ j, HasPd (fun p => (flatSe2 idX P (vec ℝ 2)).ce.val p j)
        (fun a => ((flatSe2 idX P (vec ℝ 2)).ce.jac p).val j a.pos) p := by
  obtain ⟨d1, d2, d3, d4, d5, d6, d7⟩ := se2_derivatives_partial h
  have hx := nlpXl_traj (mat := mat) (hat := hat) idX
  refine ⟨flat_endpt_exact_partial h.lie d1 hx, flat_inner_exact_partial h.lie (vec_isLie 2) d3 hx nlpUl_traj, fun p hr j => ?_, fun p hr => ?_, fun p hr j => ?_⟩
  · exact flat_dyn_jacobian_exact_partial h.lie (vec_isLie 2) d2 hx nlpUl_traj p (plane_regular h hp hr) j
  · have hs : (ocpSe2 P).g.Shape 5 2 :=
      ⟨fun t x u => (d4 t x u).1.1, fun t x u => (d4 t x u).1.2, fun t x u => (d4 t x u).2.1, fun t x u => (d4 t x u).2.2⟩
    have h1 := HasMv.comp ((d5 (p .t) _ (gmap P.toLieOps (vec ℝ 2) (nlpXl idX) nlpUl p).2.2 hr).1 0)
      (gmap_lift (z := p) h.lie (vec_isLie 2) (hx.vel (p .t)) (nlpUl_traj.vel (p .t)))
    exact h1.of_eq fun a => ((flatInner_spec P.toLieOps (vec ℝ 2) hs (nlpXl idX) nlpUl p).2.1 0 a).symm
  · have hs : (ocpSe2 P).ce.Shape 5 :=
      ⟨fun t x y q => (d6 t x y q).1.1, fun t x y q => (d6 t x y q).1.2, fun t x y q => (d6 t x y q).2.1, fun t x y q => (d6 t x y q).2.2⟩
    have h1 := HasMv.comp ((d7 (gmapE P.toLieOps (nlpXl idX) p) hr).1 j) (gmapE_lift h.lie (hx.vel (p .tf)))
    exact h1.of_eq fun a => ((flatEndpt_spec P.toLieOps hs (nlpXl idX) p).2.1 j a).symm

/-- **C129, Hessians.** With the options of the example the wrapper does not compute Hessians, and Ipopt approximates them: the second derivatives of the flattened
problem, some of which are wrong, are not used. -/
theorem se2_nlp_no_hessian : useHessianOf nlpOptions = false ∧ optValue "hessian_approximation" "exact" nlpOptions = "limited-memory" := by
  decide

/-! ### A feasible point -/

/-- The vehicle drives straight on: the states relative to the identity, the inputs relative to 0.01. -/
noncomputable def straight (env : Mesh.Env ℝ) (P : PoseOps X ℝ) (idX : X) (m : Mesh ℝ) : NVar (nColloc m) 5 2 1 → ℝ
  | .tf => 5
  | .q _ => expense P env m (straightX P idX) (fun _ => 0) - 5
  | .x i k => ![5 * tauAt env m i, 0, 0, 1, 0] k
  | .u _ _ => -(1 / 100)

theorem slope_affine {env : Mesh.Env ℝ} (hB : IsLagrange env) {Kmin Kmax : ℕ} (h1 : 1 ≤ Kmin) {m : Mesh ℝ} (hm : Valid Kmin Kmax m)
    (hL : ∀ K, Kmin ≤ K → K ≤ Kmax + 1 → IsLGR env K) (a b : ℝ) (i : Fin (nColloc m)) :
    slope env (spans 1 m) (fun l => if l < nColloc m + 1 then a * tauAt env m l + b else 0) i = a := by
  have hi : (i : ℕ) < points m := lt_of_lt_of_eq i.2 (nColloc_eq m)
  obtain ⟨p, hp, k1, k2, h⟩ := slope_poly hB hm.increasing hm.below
    (fun v hv => ⟨h1.trans (hm.degree v hv).1, hL _ (hm.degree v hv).1 (hm.degree v hv).2⟩) (fun t => a * t + b) (fun _ => C a * Polynomial.X + C b)
    (fun p hp => (natDegree_linear_le).trans (h1.trans (hm.degree _ (mem_spans_fst hp)).1))
    (fun p hp x _ _ => by simp)
    (fun j => if j < nColloc m + 1 then a * tauAt env m j + b else 0) (by
      intro j hj
      have hj' : j < nColloc m + 1 := by rw [nColloc_eq]; omega
      simp only [if_pos hj', tauAt, allNodes_eq env m hm.ne_nil]) i hi
  rw [h]
  simp

/-- **C129, feasible.** On every mesh the nonlinear program has a feasible point: the vehicle drives straight on. The exponential map is regular at its states. -/
theorem straight_feasible (h : IsPose P mat hat) (hp : IsPlane P) (hI : IsOne P idX) {env : Mesh.Env ℝ} (hB : IsLagrange env) {Kmin Kmax : ℕ}
    (h1 : 1 ≤ Kmin) {m : Mesh ℝ} (hm : Valid Kmin Kmax m) (hL : ∀ K, Kmin ≤ K → K ≤ Kmax + 1 → IsLGR env K) :
    NLP.Feasible (flatSe2 idX P (vec ℝ 2)) env m (straight env P idX m) ∧
      objective (flatSe2 idX P (vec ℝ 2)) (straight env P idX m) = expense P env m (straightX P idX) (fun _ => 0) ∧
      ∀ i, straight env P idX m (.x i 2) = 0 := by
  obtain ⟨t0, tN, -⟩ := tauAt_bounds env h1 m hm hL
  have hv : ∀ t, P.vel (P.rplus idX ![t, 0, 0, 1, 0]) = ![1, 0] := by
    intro t
    rw [h.vel, idX_vel h hI]
    simp
  have hz : (1 / 100 + -(1 / 100) : ℝ) = 0 := by norm_num
  have hx : ∀ i : Fin (nColloc m), (fun k => straight env P idX m (.x i.castSucc k)) = ![5 * tauAt env m i, 0, 0, 1, 0] := fun i => rfl
  have hf : ∀ i : Fin (nColloc m), (flatSe2 idX P (vec ℝ 2)).f.val (pt (5 * tauAt env m i) (fun k => straight env P idX m (.x i.castSucc k))
      fun k => straight env P idX m (.u i k)) = ![1, 0, 0, 0, 0] := by
    intro i
    rw [hx, flat_f, hv]
    change P.drExpinv _ *ᵥ ![1, 0, 0, 1 / 100 + -(1 / 100), 1 / 100 + -(1 / 100)] = _
    rw [hz]
    exact straight_drExpinv h hp _ 1 0
  have hend : (fun k => straight env P idX m (.x 0 k)) = ![0, 0, 0, 1, 0] := by
    funext k
    change ![5 * tauAt env m ((0 : Fin (nColloc m + 1)) : ℕ), 0, 0, 1, 0] k = _
    rw [Fin.val_zero, t0, mul_zero]
  have hlog : P.log (P.rplus idX fun k => straight env P idX m (.x 0 k)) = ![0, 0, 0, 1, 0] := by
    have e1 := hI ![1, 0]
    have e2 := hp.log ![1, 0]
    rw [e1] at e2
    rw [hend]
    exact e2
  refine ⟨⟨by simp [straight], fun i k => ?_, fun k => ?_, fun i k => ?_, fun k => ?_⟩, ?_, fun i => rfl⟩
  · change _ = 5 * (flatSe2 idX P (vec ℝ 2)).f.val (pt (5 * tauAt env m i) (fun k => straight env P idX m (.x i.castSucc k))
      fun k => straight env P idX m (.u i k)) k
    rw [hf]
    have hs := fun a b => slope_affine hB h1 hm hL a b i
    fin_cases k
    · simpa [straight] using hs 5 0
    · simpa [straight] using hs 0 0
    · simpa [straight] using hs 0 0
    · simpa [straight] using hs 0 1
    · simpa [straight] using hs 0 0
  · fin_cases k
    change expense P env m (straightX P idX) (fun _ => 0) - 5 = 5 * ∑ i : Fin (nColloc m), wAt env m i * (flatSe2 idX P (vec ℝ 2)).g.val (pt (5 * tauAt env m i)
      (fun k => straight env P idX m (.x i.castSucc k)) fun k => straight env P idX m (.u i k)) 0
    have hg : ∀ i : Fin (nColloc m), (flatSe2 idX P (vec ℝ 2)).g.val (pt (5 * tauAt env m i)
        (fun k => straight env P idX m (.x i.castSucc k)) fun k => straight env P idX m (.u i k)) 0 =
        1 / 2 * (∑ k, P.rminus (straightX P idX (5 * tauAt env m i)) (xdes P (5 * tauAt env m i)) k ^ 2 + ∑ k : Fin 2, (0 : ℝ) ^ 2) := by
      intro i
      rw [flat_g, hx]
      change 1 / 2 * (_ + ∑ k : Fin 2, (1 / 100 + -(1 / 100) : ℝ) ^ 2) = _
      rw [hz]
      rfl
    simp only [hg]
    unfold expense
    rw [Finset.mul_sum, Finset.mul_sum, add_sub_cancel_left]
    refine Finset.sum_congr rfl fun i _ => ?_
    simp only [Pi.zero_apply]
    ring
  · rw [flat_cr]
    change lower (.fin (-1)) (1 / 100 + -(1 / 100)) ∧ upper (.fin 1) (1 / 100 + -(1 / 100) : ℝ)
    rw [hz]
    exact ⟨by norm_num [lower], by norm_num [upper]⟩
  · rw [flat_ce]
    refine Fin.cases ⟨le_refl _, le_refl _⟩ (fun k => ?_) k
    have hk : (Fin.cons (NLP.ends (straight env P idX m) .tf) (P.log (P.rplus idX fun k => NLP.ends (straight env P idX m) (.x0 k))) : Fin 6 → ℝ) k.succ =
        ![0, 0, 0, 1, 0] k := by
      rw [Fin.cons_succ]
      exact congrFun hlog k
    rw [hk]
    fin_cases k <;> exact ⟨le_refl _, le_refl _⟩
  · change 5 + (expense P env m (straightX P idX) (fun _ => 0) - 5) = _
    ring

/-- **C129, cost.** The feasible points take five seconds, and the objective is at least five; an optimal one costs no more than driving straight on. -/
theorem se2_nlp_cost (h : IsPose P mat hat) (hp : IsPlane P) (hI : IsOne P idX) {env : Mesh.Env ℝ} (hB : IsLagrange env) {Kmin Kmax : ℕ}
    (h1 : 1 ≤ Kmin) {m : Mesh ℝ} (hm : Valid Kmin Kmax m) (hL : ∀ K, Kmin ≤ K → K ≤ Kmax + 1 → IsLGR env K) :
    (∀ z, NLP.Feasible (flatSe2 idX P (vec ℝ 2)) env m z → z .tf = 5 ∧ 5 ≤ objective (flatSe2 idX P (vec ℝ 2)) z) ∧
      ∀ z : NVar (nColloc m) 5 2 1 → ℝ, (∀ z', NLP.Feasible (flatSe2 idX P (vec ℝ 2)) env m z' → objective (flatSe2 idX P (vec ℝ 2)) z ≤ objective (flatSe2 idX P (vec ℝ 2)) z') →
        objective (flatSe2 idX P (vec ℝ 2)) z ≤ expense P env m (straightX P idX) (fun _ => 0) := by
  obtain ⟨s1, s2, -⟩ := straight_feasible h hp hI hB h1 hm hL
  refine ⟨fun z hz => ?_, fun z hz => s2 ▸ hz _ s1⟩
  have htf : z .tf = 5 := by
    have := hz.endpoint 0
    exact le_antisymm this.2 this.1
  refine ⟨htf, ?_⟩
  change 5 ≤ z .tf + z (.q 0)
  have hq := hz.integrals 0
  rw [hq, htf]
  have : 0 ≤ ∑ i : Fin (nColloc m), wAt env m i * (flatSe2 idX P (vec ℝ 2)).g.val (pt (5 * tauAt env m i) (fun k => z (.x i.castSucc k)) fun k => z (.u i k)) 0 := by
    refine Finset.sum_nonneg fun i _ => mul_nonneg (wAt_pos env hm hL i).le ?_
    rw [flat_g]
    positivity
  linarith

/-! ### The program -/

/-- **C129, the run.** Let Ipopt come back from every call with a vector of the right size that is feasible for the program it was given, with angles less than a full turn. Then
`main` comes to its end after at most ten passes. Every element of `sols` is a motion of the vehicle, defined at all times, that satisfies the problem on SE(2) at
the collocation points of the mesh of its pass, and the objective is its cost. If the loop was left early the measured errors of the last pass are at most
`10⁻⁶`; otherwise there were ten passes, each with a larger error. -/
theorem se2_nlp_run (h : IsPose P mat hat) (hp : IsPlane P) (env : Mesh.Env ℝ) (hB : IsLagrange env) (hS : IsSearch env) (hg : GrowthPos env)
    (hL : ∀ K, 5 ≤ K → K ≤ 11 → IsLGR env K) (jl ju : ℕ → Ext ℝ) (junk : NLPStatus) (ipopt : Mesh ℝ → Option (NLPSol ℝ) → List (CB ℝ)) (jx jlam : ℕ → ℝ)
    (hret : ∀ m start, Valid 5 10 m → (∀ s, start = some s → SizedFor 5 2 1 2 6 m s) → ∃ s, nlpSolve idX env P (vec ℝ 2) jl ju junk ipopt m start = some s ∧
      SizedFor 5 2 1 2 6 m s ∧ NLP.Feasible (flatSe2 idX P (vec ℝ 2)) env m (held (nColloc m) 5 2 1 s.x) ∧
      ∀ i : Fin (nColloc m), |held (nColloc m) 5 2 1 s.x (.x i.castSucc 2)| < 2 * Real.pi) :
    ∃ out sols, nlpMain idX env P (vec ℝ 2) jl ju junk ipopt jx jlam = some (out, sols) ∧ out.passes ≠ [] ∧ out.passes.length ≤ 10 ∧
      sols.length = out.passes.length ∧
      (∀ (k : ℕ) (p : Pass 5 2 1 2 6) (s : GOCPSol X (Fin 2 → ℝ) ℝ 5 1 2 6), out.passes[k]? = some p → sols[k]? = some s →
        Valid 5 10 p.mesh ∧ s.t0 = 0 ∧ s.tf = 5 ∧ ∃ x u, (∀ t, s.x t = some (x t)) ∧ (∀ t, s.u t = some (u t)) ∧ ContinuousOn (fun t => mat (x t)) (Set.Icc 0 5) ∧
          Drives P mat hat env p.mesh x u ∧ 5 + s.Q 0 = expense P env p.mesh x u) ∧
      (out.broke = true → ∃ p, out.passes.getLast? = some p ∧ p.mesh = out.mesh ∧ ∀ e ∈ p.errs, e ≤ 1 / 10 ^ 6) ∧
      (out.broke = false → out.passes.length = 10 ∧ ∀ p ∈ out.passes, ∃ e ∈ p.errs, 1 / 10 ^ 6 < e) := by
  have htf : ∀ {m : Mesh ℝ} {s : NLPSol ℝ}, NLP.Feasible (flatSe2 idX P (vec ℝ 2)) env m (held (nColloc m) 5 2 1 s.x) → s.x.val 0 = 5 := by
    intro m s hf
    have := hf.endpoint 0
    exact le_antisymm this.2 this.1
  have hR : Returns 5 2 1 2 6 5 10 (nlpSolve idX env P (vec ℝ 2) jl ju junk ipopt) := by
    intro m start hm hst
    obtain ⟨s, e, hsz, hf, -⟩ := hret m start hm hst
    exact ⟨s, e, hsz, by rw [htf hf]; norm_num⟩
  obtain ⟨out, r1, r2, -, r4, r5, -, -, -, r9, r10⟩ := refine_loop env hB hS hg 5 10 (by norm_num) (by norm_num) hL
    (nlpSolve idX env P (vec ℝ 2) jl ju junk ipopt) hR (fun t x u => (flatSe2 idX P (vec ℝ 2)).f.val (pt t x u)) targetErr (by norm_num [targetErr]) jx jlam 10
    [⟨5, 0⟩] (valid_single 5 10 (by norm_num)) (by simp) none (by simp)
  refine ⟨out, _, by rw [nlpMain, r1]; rfl, ?_, r5, by simp, fun k p s hk hs => ?_, ?_, ?_⟩
  · intro he
    cases hb : out.broke with
    | true =>
      obtain ⟨p, hp, -⟩ := r9 hb
      rw [he] at hp
      simp at hp
    | false =>
      have := (r10 hb).1
      rw [he] at this
      simp at this
  · have hok := r2 p (List.mem_of_getElem? hk)
    rw [List.getElem?_map, hk] at hs
    obtain rfl := Option.some.inj hs
    obtain ⟨s, e1, e2⟩ := hok.solved
    obtain ⟨s', e1', hsz, hf, hang⟩ := hret p.mesh p.start hok.valid hok.start
    obtain rfl : s' = s := Option.some.inj (e1'.symm.trans e1)
    have h5 := htf hf
    obtain ⟨o, x, u, c1, c2, c3, c4, c5, c6, c7, -⟩ := unflatten_collocated (LU := vec ℝ 2) h.lie env hB hS (Kmin := 5) (Kmax := 10) (by norm_num) p.mesh hok.valid hL
      (ocpSe2 P) (nlpXl idX) nlpUl s' hsz.1 hsz.2 (by rw [h5]; norm_num) (fun t _ => HasDerivWithinAt.mono (show HasDerivWithinAt _ _ Set.univ t from (nlpXl_traj (mat := mat) (hat := hat) idX).vel t) (Set.subset_univ _))
      (fun i => plane_regular h hp (hang i))
    obtain rfl : o = p.sol := Option.some.inj (c1.symm.trans e2)
    rw [h5] at c3 c6 c7
    obtain ⟨-, d1, d2⟩ := collocated_iff.1 (c7.1 hf)
    exact ⟨hok.valid, c2, c3, x, u, c4, c5, c6, d1, d2⟩
  · exact r9
  · exact fun hb => ⟨(r10 hb).1, (r10 hb).2.1⟩

end

end Verif.SE2
