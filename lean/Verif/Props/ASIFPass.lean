import Verif.Props.ASIF
import Verif.Props.QPZero

/-!
# The safety filter with the library's QP solver (C68)
-/

set_option linter.unusedSectionVars false

namespace Verif.ASIF

open Verif.QPSpec
open Verif.QP (Ext Status LdltOk SqrtPos Scaling)

variable {X U F : Type*} {nx nu : ℕ} [Field F] [LinearOrder F] [IsStrictOrderedRing F]

theorem built_psd (env : Env X U F nx nu) (d : Dyn X U F nx nu) (b : Backup X U F nx) (h : Barrier X F nx) (p : Pbm X U F nu) (prm : Prm F)
    (hW : ∀ i, 0 ≤ p.W i) (hr : 0 ≤ prm.relax) (steps : ℕ → List F) (m : ℕ) :
    Lin.PSD ((built env d b h p prm steps).pbm (nu + 1) m).P := by
  constructor
  · ext i j
    change (built env d b h p prm steps).P.val j i = (built env d b h p prm steps).P.val i j
    simp only [built]
    by_cases h1 : (i : ℕ) < nu <;> by_cases h2 : (j : ℕ) < nu
    · simp only [h1, h2, and_self, if_true, extM]
      by_cases hij : (i : ℕ) = j
      · simp [hij, h2]
      · rw [dif_pos trivial, dif_pos trivial, Matrix.diagonal_apply_ne _ (by simpa [Fin.ext_iff] using fun h => hij h.symm),
          Matrix.diagonal_apply_ne _ (by simpa [Fin.ext_iff] using hij)]
    · have : ¬(i : ℕ) = nu := by omega
      simp only [h1, h2, and_true, and_false, if_false, true_and, false_and, this]
    · have : ¬(j : ℕ) = nu := by omega
      simp only [h1, h2, and_true, and_false, if_false, true_and, false_and, this]
    · simp only [h1, h2, and_self, if_false, and_comm]
  · intro v
    have h1 := built_cost env d b h p prm steps m v
    have h2 : ((built env d b h p prm steps).pbm (nu + 1) m).q = 0 := rfl
    unfold cost at h1
    rw [h2, zero_dotProduct, add_zero] at h1
    have h3 : 0 ≤ ∑ i, p.W i * corr v i ^ 2 := Finset.sum_nonneg fun i _ => mul_nonneg (hW i) (sq_nonneg _)
    have h4 : 0 ≤ prm.relax * slack v ^ 2 := mul_nonneg hr (sq_nonneg _)
    linarith

/-- Assumptions on the parameters and the linear algebra of the solver. -/
structure SolverOk (qenv : QP.Env F (nu + 1)) (prm : QP.Params F) (fuel : ℕ) : Prop where
  sqrt : SqrtPos qenv
  ldlt : LdltOk qenv
  finds : ∀ m (p : QP.Pbm F (nu + 1) m), Lin.PSD p.P → ∀ s : Scaling F (nu + 1) m, s.Pos →
    qenv.factor m (QP.kkt prm.sigma p s (QP.rhoVec prm p s)) ≠ none
  eps : 0 ≤ qenv.eps
  sigma : 0 < prm.sigma
  rho : 0 < prm.rho
  epsAbs : 0 ≤ prm.epsAbs
  epsRel : 0 ≤ prm.epsRel
  delta : 0 < prm.delta
  check : 2 ≤ prm.stopCheckIter
  iter : ∀ e, prm.maxIter = some e → 2 ≤ e
  fuel : 3 ≤ fuel

/-- The call's desired input satisfies the input constraints and the barrier conditions. -/
def Harmless (env : Env X U F nx nu) (d : Dyn X U F nx nu) (prm : FPrm U F nu) (steps : ℕ → List F) (c : Call X U F nx) : Prop :=
  c.h.nh = prm.nh ∧ InBounds env prm.ulim c.udes ∧ Safe env d c.b c.h ⟨prm.T, c.g, c.udes, prm.W, prm.ulim⟩ prm.asif steps 0 0

/-- The stored solution, if any, is zero. -/
def ZeroWarm : Option (QSol F) → Prop
  | none => True
  | some w => (∀ i, w.primal.val i = 0) ∧ ∀ i, w.dual.val i = 0

theorem withQP_of (qenv : QP.Env F (nu + 1)) (qprm : QP.Params F) (qfuel : ℕ) (qp : DQP F) (w : Option (QSol F)) (s : QP.Sol F (nu + 1) qp.l.size)
    (h : QP.solveQP qenv qprm (qp.pbm (nu + 1) qp.l.size) (w.map fun w => (fun j => w.primal.val j, fun i => w.dual.val i)) qfuel = .ok s) :
    withQP qenv qprm qfuel qp w = some ⟨s.code, ⟨nu + 1, fun j => if h : j < nu + 1 then s.primal ⟨j, h⟩ else 0⟩,
      ⟨qp.l.size, fun i => if h : i < qp.l.size then s.dual ⟨i, h⟩ else 0⟩⟩ := by
  unfold DQP.pbm at h
  unfold withQP
  simp only [h]

theorem withQP_zero (qenv : QP.Env F (nu + 1)) (qprm : QP.Params F) (qfuel : ℕ) (hok : SolverOk qenv qprm qfuel)
    (env : Env X U F nx nu) (d : Dyn X U F nx nu) (b : Backup X U F nx) (h : Barrier X F nx) (p : Pbm X U F nu) (prm : Prm F)
    (hW : ∀ i, 0 ≤ p.W i) (hr : 0 ≤ prm.relax) (steps : ℕ → List F) (hu : InBounds env p.ulim p.udes) (hs : Safe env d b h p prm steps 0 0)
    (w : Option (QSol F)) (hw : ZeroWarm w) :
    ∃ sol, withQP qenv qprm qfuel (built env d b h p prm steps) w = some sol ∧ sol.code = .optimal ∧ sol.primal.size = nu + 1 ∧
      ZeroWarm (some sol) := by
  set qp := built env d b h p prm steps with hqp
  have hf : Feasible (qp.pbm (nu + 1) (prm.K * h.nh + p.ulim.rows + 1)) 0 := by
    rw [hqp, built_feasible]
    refine ⟨hs, ?_, le_rfl⟩
    have : corr (0 : Fin (nu + 1) → F) = 0 := rfl
    rw [this, add_zero]
    exact hu
  have hsolve := QP.qp_zero_exact qenv qprm (qp.pbm (nu + 1) (prm.K * h.nh + p.ulim.rows + 1)) qfuel hok.sqrt hok.ldlt hok.eps
    (built_psd env d b h p prm hW hr steps _) rfl hf hok.sigma hok.rho hok.epsAbs hok.epsRel hok.delta hok.check hok.iter
    (fun _ => ⟨by omega, by omega⟩) (fun s hs => hok.finds _ _ (built_psd env d b h p prm hW hr steps _) s hs) hok.fuel
    (w.map fun w => (fun j => w.primal.val j, fun i => w.dual.val i)) (by
      cases w with
      | none => exact Or.inl rfl
      | some w =>
        right
        rw [Option.map_some]
        congr 1
        refine Prod.ext ?_ ?_
        · funext i; exact hw.1 i
        · funext i; exact hw.2 i)
  refine ⟨_, withQP_of qenv qprm qfuel qp w _ hsolve, rfl, rfl, fun i => ?_, fun i => ?_⟩
  · dsimp only; split_ifs <;> rfl
  · dsimp only; split_ifs <;> rfl

/-- **C68.** With `solve_qp` as the solver, a filter that has only been given harmless inputs returns the next harmless input unchanged, as
`Optimal`. -/
theorem asif_pass_exact [Archimedean F] (env : Env X U F nx nu) (h0 : ∀ u, env.uplus u 0 = u) (d : Dyn X U F nx nu) (prm : FPrm U F nu)
    (hW : ∀ i, 0 ≤ prm.W i) (hr : 0 ≤ prm.asif.relax) (steps : ℕ → List F)
    (hS : Schedule prm.asif.K (prm.T / prm.asif.K) (min prm.asif.dt (prm.T / prm.asif.K)) steps)
    (qenv : QP.Env F (nu + 1)) (qprm : QP.Params F) (qfuel : ℕ) (hok : SolverOk qenv qprm qfuel)
    (fuel : ℕ) (hfuel : ∀ k ≤ prm.asif.K, (steps k).length < fuel) (cs : List (Call X U F nx)) (hcs : ∀ c ∈ cs, Harmless env d prm steps c)
    (c : Call X U F nx) (hc : Harmless env d prm steps c) :
    ∃ s s', Filter.run env (withQP qenv qprm qfuel) fuel cs (Filter.new d prm) = some s ∧
      s.call env (withQP qenv qprm qfuel) fuel c = some (s', c.udes, .optimal) := by
  have key : ∀ (s : Filter X U F nx nu) (c : Call X U F nx), Harmless env d prm steps c →
      s.d = d → s.prm = prm → Clean nu prm.asif.K prm.ulim.rows prm.nh s.qp → ZeroWarm s.warm →
      ∃ s', s.call env (withQP qenv qprm qfuel) fuel c = some (s', c.udes, .optimal) ∧
        s'.d = d ∧ s'.prm = prm ∧ Clean nu prm.asif.K prm.ulim.rows prm.nh s'.qp ∧ ZeroWarm s'.warm := by
    rintro ⟨sd, sq, sp, sw⟩ c ⟨hn, hu, hs⟩ h1 h2 h3 h4
    dsimp only at h1 h2 h3 h4
    subst h1 h2
    rw [← hn] at h3
    have hup := update_eq env sd c.b c.h ⟨sp.T, c.g, c.udes, sp.W, sp.ulim⟩ sp.asif fuel steps hS hfuel sq h3
    obtain ⟨sol, g1, g2, g3, g4⟩ := withQP_zero qenv qprm qfuel hok env sd c.b c.h ⟨sp.T, c.g, c.udes, sp.W, sp.ulim⟩ sp.asif hW hr steps hu hs sw h4
    refine ⟨⟨sd, built env sd c.b c.h ⟨sp.T, c.g, c.udes, sp.W, sp.ulim⟩ sp.asif steps, sp, some sol⟩, ?_, rfl, rfl, ?_, g4⟩
    · unfold Filter.call
      rw [if_pos hn.symm]
      dsimp only [FPrm.pbm]
      rw [hup, Option.bind_some, g1, Option.bind_some, if_pos (by omega), if_pos g2, g2]
      have : (fun i : Fin nu => sol.primal.val i) = 0 := by funext i; exact g4.1 i
      rw [this, h0]
    · rw [← hn]
      exact built_clean env sd c.b c.h ⟨sp.T, c.g, c.udes, sp.W, sp.ulim⟩ sp.asif steps
  have hrun : ∀ (cs : List (Call X U F nx)) (s : Filter X U F nx nu), (∀ c ∈ cs, Harmless env d prm steps c) → s.d = d → s.prm = prm →
      Clean nu prm.asif.K prm.ulim.rows prm.nh s.qp → ZeroWarm s.warm →
      ∃ s', Filter.run env (withQP qenv qprm qfuel) fuel cs s = some s' ∧ s'.d = d ∧ s'.prm = prm ∧ Clean nu prm.asif.K prm.ulim.rows prm.nh s'.qp ∧
        ZeroWarm s'.warm := by
    intro cs
    induction cs with
    | nil => intro s _ a1 a2 a3 a4; exact ⟨s, rfl, a1, a2, a3, a4⟩
    | cons c cs ih =>
      intro s hall a1 a2 a3 a4
      obtain ⟨s1, b0, b1, b2, b3, b4⟩ := key s c (hall c (by simp)) a1 a2 a3 a4
      obtain ⟨s2, c0, c1⟩ := ih s1 (fun c' h' => hall c' (by simp [h'])) b1 b2 b3 b4
      exact ⟨s2, by rw [Filter.run, b0, Option.bind_some]; exact c0, c1⟩
  obtain ⟨s, a0, a1, a2, a3, a4⟩ := hrun cs (Filter.new d prm) hcs rfl rfl (allocate_clean _ _ _ _) trivial
  obtain ⟨s', b0, -⟩ := key s c hc a1 a2 a3 a4
  exact ⟨s, s', a0, b0⟩

end Verif.ASIF
