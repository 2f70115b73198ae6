import Verif.Spec.ASIFTol
import Verif.Props.ASIFAlways
import Verif.Props.QPErrorBound
import Verif.Proofs.FrankWolfe

/-! # Answers of the safety filter with the modelled solver converge to the exact one (C142) -/

set_option linter.unusedSectionVars false

namespace Verif.ASIF

open scoped Matrix
open Verif.QPSpec
open Verif.QP (Ext Status SqrtPos)
open Verif.MPC (Solves Verdict)

variable {X U : Type*} {nx nu : ℕ} {qenv : (n : ℕ) → QP.Env ℝ n} {qprm : QP.Params ℝ}

/-- The data of the call. -/
def pbmOf (prm : FPrm U ℝ nu) (c : Call X U ℝ nx) : Pbm X U ℝ nu := ⟨prm.T, c.g, c.udes, prm.W, prm.ulim⟩

/-- The program of the call. -/
noncomputable def prog (env : Env X U ℝ nx nu) (d : Dyn X U ℝ nx nu) (prm : FPrm U ℝ nu) (c : Call X U ℝ nx) (steps : ℕ → List ℝ) :
    QP.Pbm ℝ (nu + 1) (prm.asif.K * c.h.nh + prm.ulim.rows + 1) :=
  (built env d c.b c.h (pbmOf prm c) prm.asif steps).pbm (nu + 1) (prm.asif.K * c.h.nh + prm.ulim.rows + 1)

variable {env : Env X U ℝ nx nu} {d : Dyn X U ℝ nx nu} {prm : FPrm U ℝ nu} {c : Call X U ℝ nx} {steps : ℕ → List ℝ}

theorem prog_feasible (v : Fin (nu + 1) → ℝ) : Feasible (prog env d prm c steps) v ↔ Allowed env d prm c steps (corr v) (slack v) := by
  have := built_feasible env d c.b c.h (pbmOf prm c) prm.asif steps v
  exact this.trans ⟨fun h => ⟨h.2.1, h.1, h.2.2⟩, fun h => ⟨h.2, h.1, h.3⟩⟩

theorem prog_cost (v : Fin (nu + 1) → ℝ) : cost (prog env d prm c steps) v = (∑ i, prm.W i * corr v i ^ 2 + prm.asif.relax * slack v ^ 2) / 2 :=
  built_cost env d c.b c.h (pbmOf prm c) prm.asif steps _ v

theorem corr_snoc (mu : Fin nu → ℝ) (s : ℝ) : corr (Fin.snoc (α := fun _ => ℝ) mu s) = mu := by funext i; simp [corr]

theorem slack_snoc (mu : Fin nu → ℝ) (s : ℝ) : slack (Fin.snoc (α := fun _ => ℝ) mu s) = s := by simp [slack]

theorem prog_minimiser (v : Fin (nu + 1) → ℝ) : Minimiser (prog env d prm c steps) v ↔ Best env d prm c steps (corr v) (slack v) := by
  constructor
  · rintro ⟨h1, h2⟩
    refine ⟨(prog_feasible v).1 h1, fun mu s h => ?_⟩
    have := h2 (Fin.snoc (α := fun _ => ℝ) mu s) ((prog_feasible _).2 (by rw [corr_snoc, slack_snoc]; exact h))
    rw [prog_cost, prog_cost, corr_snoc, slack_snoc] at this
    linarith
  · rintro ⟨h1, h2⟩
    refine ⟨(prog_feasible v).2 h1, fun v' h' => ?_⟩
    have := h2 _ _ ((prog_feasible v').1 h')
    rw [prog_cost, prog_cost]
    linarith

theorem prog_psd (hW : ∀ i, 0 ≤ prm.W i) (hr : 0 ≤ prm.asif.relax) : Lin.PSD (prog env d prm c steps).P :=
  built_psd env d c.b c.h (pbmOf prm c) prm.asif hW hr steps _

theorem safe_mid {p : Pbm X U ℝ nu} {q : Prm ℝ} {mu mu' : Fin nu → ℝ} {s s' : ℝ} (h : Safe env d c.b c.h p q steps mu s) (h' : Safe env d c.b c.h p q steps mu' s') :
    Safe env d c.b c.h p q steps (fun i => (mu i + mu' i) / 2) ((s + s') / 2) := by
  intro k hk j
  have h1 := h k hk j
  have h2 := h' k hk j
  have e : (fun i => (mu i + mu' i) / 2) = (1 / 2 : ℝ) • mu + (1 / 2 : ℝ) • mu' := by
    funext i
    simp
    ring
  rw [e]
  unfold barrier at h1 h2 ⊢
  simp only [Matrix.mulVec_add, Matrix.mulVec_smul, Pi.add_apply, Pi.smul_apply, smul_eq_mul] at h1 h2 ⊢
  linarith

theorem poly_mid {B : Bounds U ℝ nu} {w mu mu' : Fin nu → ℝ} (h : InPoly B (w + mu)) (h' : InPoly B (w + mu')) : InPoly B (w + fun i => (mu i + mu' i) / 2) := by
  intro i
  obtain ⟨a1, a2⟩ := h i
  obtain ⟨b1, b2⟩ := h' i
  have e : (w + fun i => (mu i + mu' i) / 2) = (1 / 2 : ℝ) • (w + mu) + (1 / 2 : ℝ) • (w + mu') := by
    funext i
    simp
    ring
  rw [e, Matrix.mulVec_add, Matrix.mulVec_smul, Matrix.mulVec_smul, Pi.add_apply, Pi.smul_apply, Pi.smul_apply, smul_eq_mul, smul_eq_mul]
  constructor
  · cases hl : B.l i <;> rw [hl] at a1 b1 <;> simp only [lower] at a1 b1 ⊢
    linarith
  · cases hl : B.u i <;> rw [hl] at a2 b2 <;> simp only [upper] at a2 b2 ⊢
    linarith

/-- **C142.** With positive weights there is at most one best answer. -/
theorem asif_best_unique (hW : ∀ i, 0 < prm.W i) (hr : 0 < prm.asif.relax) {mu mu' : Fin nu → ℝ} {s s' : ℝ} (h : Best env d prm c steps mu s)
    (h' : Best env d prm c steps mu' s') : mu = mu' ∧ s = s' := by
  have hm := h.2 _ _ ⟨poly_mid h.1.bounds h'.1.bounds, safe_mid h.1.safe h'.1.safe, by linarith [h.1.nonneg, h'.1.nonneg]⟩
  have hle := h'.2 _ _ h.1
  have e : ∑ i, prm.W i * ((mu i + mu' i) / 2) ^ 2 = (∑ i, prm.W i * mu i ^ 2 + ∑ i, prm.W i * mu' i ^ 2) / 2 - (∑ i, prm.W i * (mu i - mu' i) ^ 2) / 4 := by
    rw [← Finset.sum_add_distrib, Finset.sum_div, Finset.sum_div, ← Finset.sum_sub_distrib]
    exact Finset.sum_congr rfl fun i _ => by ring
  have h0 : ∀ i, 0 ≤ prm.W i * (mu i - mu' i) ^ 2 := fun i => mul_nonneg (hW i).le (sq_nonneg _)
  have h1 : 0 ≤ ∑ i, prm.W i * (mu i - mu' i) ^ 2 := Finset.sum_nonneg fun i _ => h0 i
  have h2 : 0 ≤ prm.asif.relax * (s - s') ^ 2 := mul_nonneg hr.le (sq_nonneg _)
  rw [e] at hm
  have h3 : ∑ i, prm.W i * (mu i - mu' i) ^ 2 + prm.asif.relax * (s - s') ^ 2 ≤ 0 := by nlinarith
  have h4 : ∑ i, prm.W i * (mu i - mu' i) ^ 2 = 0 := by linarith
  have h5 : prm.asif.relax * (s - s') ^ 2 = 0 := by linarith
  constructor
  · funext i
    have := (Finset.sum_eq_zero_iff_of_nonneg fun i _ => h0 i).1 h4 i (Finset.mem_univ i)
    rcases mul_eq_zero.1 this with h | h
    · exact absurd h (hW i).ne'
    · exact sub_eq_zero.1 (pow_eq_zero_iff two_ne_zero |>.1 h)
  · rcases mul_eq_zero.1 h5 with h | h
    · exact absurd h hr.ne'
    · exact sub_eq_zero.1 (pow_eq_zero_iff two_ne_zero |>.1 h)

/-- **C142.** If some input satisfies the input constraints there is a best answer, however unsafe the state. -/
theorem asif_best_exists (hW : ∀ i, 0 ≤ prm.W i) (hr : 0 ≤ prm.asif.relax) (hu : ∃ u, InBounds env prm.ulim u) : ∃ mu s, Best env d prm c steps mu s := by
  obtain ⟨u, hu⟩ := hu
  obtain ⟨s, h0, hs⟩ := exists_slack env d c.b c.h (pbmOf prm c) prm.asif steps (env.uminus u prm.ulim.c - env.uminus c.udes prm.ulim.c)
  have hf : Feasible (prog env d prm c steps) (Fin.snoc (α := fun _ => ℝ) (env.uminus u prm.ulim.c - env.uminus c.udes prm.ulim.c) s) := by
    rw [prog_feasible, corr_snoc, slack_snoc]
    exact ⟨by rw [add_sub_cancel]; exact hu, hs, h0⟩
  obtain ⟨v, hv⟩ := QP.minimiser_exists (prog_psd hW hr) hf (by
    rintro ⟨d, hd⟩
    have := hd.2.1
    rw [show (prog env _ prm c steps).q = 0 from rfl, zero_dotProduct] at this
    exact absurd this (lt_irrefl _))
  exact ⟨_, _, (prog_minimiser v).1 hv⟩

/-- What a call that returned did. -/
theorem call_solution (fuel : ℕ) {s : Filter X U ℝ nx nu} (hs : Kept d prm s) (hn : c.h.nh = prm.nh) (hS : Schedule prm.asif.K (prm.T / prm.asif.K) (min prm.asif.dt (prm.T / prm.asif.K)) steps)
    {r : Filter X U ℝ nx nu × U × Status} (hc : s.call env (withQP (qenv (nu + 1)) qprm fuel) fuel c = some r) :
    ∃ ws sol, QP.solveQP (qenv (nu + 1)) qprm (prog env d prm c steps) ws fuel = .ok sol ∧ r.2.1 = env.uplus c.udes (corr sol.primal) ∧ r.2.2 = sol.code := by
  rw [kept_program _ fuel hs c hn, Option.bind_eq_some_iff] at hc
  obtain ⟨qp, h1, h2⟩ := hc
  rw [Option.bind_eq_some_iff] at h2
  obtain ⟨sol, h3, h4⟩ := h2
  have hqp : qp = built env d c.b c.h (pbmOf prm c) prm.asif steps := by
    have hb := update_eq env d c.b c.h (pbmOf prm c) prm.asif (max fuel ((Finset.range (prm.asif.K + 1)).sup (fun k => (steps k).length) + 1)) steps hS (fun k hk =>
      lt_max_of_lt_right (Nat.lt_succ_of_le (Finset.le_sup (f := fun k => (steps k).length) (Finset.mem_range.mpr (by omega))))) _
      (allocate_clean nu prm.asif.K prm.ulim.rows c.h.nh)
    have h2 := update_mono env d c.b c.h (pbmOf prm c) prm.asif fuel (max fuel ((Finset.range (prm.asif.K + 1)).sup (fun k => (steps k).length) + 1)) (le_max_left _ _) _ _ h1
    rw [hb] at h2
    exact (Option.some.inj h2).symm
  subst hqp
  unfold withQP at h3
  dsimp only at h3
  split at h3
  · rename_i so hso
    obtain rfl := Option.some.inj h3
    rw [if_pos (Nat.le_succ nu)] at h4
    obtain rfl := Option.some.inj h4
    refine ⟨_, so, hso, ?_, rfl⟩
    dsimp only
    congr 1
    funext i
    rw [dif_pos (by omega)]
    rfl
  · cases h3
  · cases h3

/-- The barrier conditions of a point that is near the rows of the program. -/
theorem prog_near {v : Fin (nu + 1) → ℝ} {τ : ℝ} (h : ∀ r, lower ((prog env d prm c steps).l r) (((prog env d prm c steps).A *ᵥ v) r + τ)) :
    Safe env d c.b c.h (pbmOf prm c) prm.asif steps (corr v) (slack v + τ) := by
  intro k hk j
  have hr : k * c.h.nh + j < prm.asif.K * c.h.nh := by
    have : (k + 1) * c.h.nh ≤ prm.asif.K * c.h.nh := Nat.mul_le_mul_right _ hk
    rw [Nat.succ_mul] at this
    omega
  have h1 := h ⟨k * c.h.nh + j, by omega⟩
  unfold prog at h1
  rw [row_val] at h1
  simp only [built, DQP.pbm] at h1
  simp only [hr, if_true, Fin.is_lt, lt_irrefl, if_false] at h1
  rw [← bar_row]
  rw [add_assoc, one_mul] at h1
  rw [one_mul (slack v + τ)]
  exact h1

/-- **C142.** For every call of a filter with positive weights and some admissible input there are constants such that every Optimal answer of the modelled solver, after any history, without polishing and with
relative tolerance zero, differs from the best correction by at most `C` times the absolute tolerance, and satisfies the barrier conditions up to the best slack and `C` times the tolerance. -/
theorem asif_error_bound (env : Env X U ℝ nx nu) (d : Dyn X U ℝ nx nu) (prm : FPrm U ℝ nu) (c : Call X U ℝ nx) (steps : ℕ → List ℝ) (hW : ∀ i, 0 < prm.W i) (hr : 0 < prm.asif.relax)
    (hn : c.h.nh = prm.nh) (hS : Schedule prm.asif.K (prm.T / prm.asif.K) (min prm.asif.dt (prm.T / prm.asif.K)) steps) (hu : ∃ u, InBounds env prm.ulim u) :
    ∃ (mu : Fin nu → ℝ) (sl C e0 : ℝ), Best env d prm c steps mu sl ∧ 0 ≤ C ∧ 0 < e0 ∧
      ∀ (qenv : (n : ℕ) → QP.Env ℝ n) (qprm : QP.Params ℝ) (fuel fuel' : ℕ) (cs : List (Call X U ℝ nx)) (s s' : Filter X U ℝ nx nu) (u : U),
        SqrtPos (qenv (nu + 1)) → 0 < qprm.rho → qprm.polish = false → 0 ≤ qprm.epsAbs → qprm.epsRel = 0 → qprm.epsAbs ≤ e0 →
        Filter.run env (withQP (qenv (nu + 1)) qprm fuel) fuel cs (Filter.new d prm) = some s →
        s.call env (withQP (qenv (nu + 1)) qprm fuel') fuel' c = some (s', u, .optimal) →
        ∃ mu', u = env.uplus c.udes mu' ∧ (∀ i, |mu i - mu' i| ≤ C * qprm.epsAbs) ∧
          Safe env d c.b c.h ⟨prm.T, c.g, c.udes, prm.W, prm.ulim⟩ prm.asif steps mu' (sl + C * qprm.epsAbs) := by
  obtain ⟨mu, sl, hb⟩ := asif_best_exists (env := env) (d := d) (prm := prm) (c := c) (steps := steps) (fun i => (hW i).le) hr.le hu
  obtain ⟨C, hC, hmain⟩ := QP.qp_error_bound_unique (prog env d prm c steps).P (prog env d prm c steps).A (prog_psd (fun i => (hW i).le) hr.le)
  obtain ⟨e0, he0, hbound⟩ := hmain (prog env d prm c steps).q (prog env d prm c steps).l (prog env d prm c steps).u (Fin.snoc (α := fun _ => ℝ) mu sl) (by
    intro v hv
    obtain ⟨h1, h2⟩ := asif_best_unique hW hr ((prog_minimiser v).1 hv) hb
    funext j
    induction j using Fin.lastCases with
    | last => rw [Fin.snoc_last]; exact h2
    | cast j => rw [Fin.snoc_castSucc]; exact congrFun h1 j)
  refine ⟨mu, sl, C + 1, e0, hb, by linarith, he0, fun qenv qprm fuel fuel' cs s s' u hsq hrho hpol hea her hle hrun hcall => ?_⟩
  have hk : Kept d prm s := run_inv env _ fuel d prm cs _ s (kept_new d prm) hrun
  obtain ⟨ws, sol, h1, h2, h3⟩ := call_solution fuel' hk hn hS hcall
  have hopt : sol.code = .optimal := h3.symm
  have hd := hbound (qenv (nu + 1)) qprm ws fuel' sol hsq hrho hpol hea her hle h1 hopt
  refine ⟨corr sol.primal, h2, fun i => ?_, ?_⟩
  · have := hd i.castSucc
    rw [Fin.snoc_castSucc] at this
    exact this.trans (by nlinarith)
  · obtain ⟨⟨z, rp, rd, hz, -, ⟨rv, rw', rt, -, -, -, hrp⟩, hp, -⟩, -⟩ := QP.qp_optimal_certificate hsq hrho hpol h1 hopt
    rw [her, zero_mul, add_zero] at hrp
    subst hrp
    have hN : Safe env d c.b c.h (pbmOf prm c) prm.asif steps (corr sol.primal) (slack sol.primal + qprm.epsAbs) := prog_near fun r => by
      have a1 := abs_le.1 (hp r)
      have a2 := (hz r).1
      cases hl : (prog env d prm c steps).l r with
      | neg => trivial
      | pos => rw [hl] at a2; exact a2
      | fin b =>
        rw [hl] at a2
        simp only [lower] at a2 ⊢
        linarith [a1.1]
    intro k hk j
    have := hN k hk j
    have h4 := hd (Fin.last nu)
    rw [Fin.snoc_last] at h4
    have h5 := abs_le.1 h4
    have h6 : slack sol.primal = sol.primal (Fin.last nu) := rfl
    change 0 ≤ _ + (slack sol.primal + qprm.epsAbs) at this
    refine this.trans (add_le_add le_rfl ?_)
    rw [h6]
    linarith [h5.1]

/-- **C142, returning calls.** If the coefficients of the inputs in the barrier conditions are at most `a`, the bounds are separate bounds of inputs and the tolerances are fine for that, the call does return, with
Optimal and with the best input up to `C` times the absolute tolerance. -/
theorem asif_small_tolerances_solve (env : Env X U ℝ nx nu) (d : Dyn X U ℝ nx nu) (prm : FPrm U ℝ nu) (c : Call X U ℝ nx) (steps : ℕ → List ℝ) (hW : ∀ i, 0 < prm.W i) (hr : 0 < prm.asif.relax)
    (hn : c.h.nh = prm.nh) (hS : Schedule prm.asif.K (prm.T / prm.asif.K) (min prm.asif.dt (prm.T / prm.asif.K)) steps) (hu : ∃ u, InBounds env prm.ulim u)
    (ht : prm.asif.K = 0 ∨ prm.T ≤ 0 ∨ 0 < prm.asif.dt) (a : ℝ) (hA : Steep env d prm c a) (hU : Own prm.ulim) (hrow : ∃ i x y, prm.ulim.l i = .fin x ∧ prm.ulim.u i = .fin y) :
    ∃ (mu : Fin nu → ℝ) (sl C e0 : ℝ), Best env d prm c steps mu sl ∧ 0 ≤ C ∧ 0 < e0 ∧
      ∀ (qenv : (n : ℕ) → QP.Env ℝ n) (qprm : QP.Params ℝ) (cs : List (Call X U ℝ nx)), Solves qenv qprm → qprm.polish = false → qprm.epsRel = 0 → qprm.epsAbs ≤ e0 → Fine qprm prm a →
        (∀ c ∈ cs, c.h.nh = prm.nh) →
        ∃ N s s' mu', (∀ fuel, N ≤ fuel → Filter.run env (withQP (qenv (nu + 1)) qprm fuel) fuel cs (Filter.new d prm) = some s ∧
            s.call env (withQP (qenv (nu + 1)) qprm fuel) fuel c = some (s', env.uplus c.udes mu', .optimal)) ∧
          (∀ i, |mu i - mu' i| ≤ C * qprm.epsAbs) ∧
          Safe env d c.b c.h ⟨prm.T, c.g, c.udes, prm.W, prm.ulim⟩ prm.asif steps mu' (sl + C * qprm.epsAbs) := by
  obtain ⟨mu, sl, C, e0, hb, hC, he0, hmain⟩ := asif_error_bound env d prm c steps hW hr hn hS hu
  refine ⟨mu, sl, C, e0, hb, hC, he0, fun qenv qprm cs hSol hpol her hle hF hcs => ?_⟩
  obtain ⟨N, s, ⟨s', u, code⟩, h1, -, h2⟩ := asif_always_returns hSol env d prm (fun i => (hW i).le) hr.le ht cs hcs c hn
  obtain rfl : code = .optimal := h2 a hF hA hU hrow hu
  obtain ⟨mu', rfl, h3, h4⟩ := hmain qenv qprm N N cs s s' u (hSol.sqrt _) hSol.rho hpol hSol.epsAbs.le her hle (h1 N le_rfl).1 (h1 N le_rfl).2
  exact ⟨N, s, s', mu', h1, h3, h4⟩

end Verif.ASIF
