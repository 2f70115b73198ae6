import Verif.Model.QPAlias
import Verif.Props.QP

/-!
# Warm starts from the solver's own solution (C97)
-/

namespace Verif.QP

open Matrix Verif.QPSpec

variable {F : Type*} [Field F] [LinearOrder F] [IsStrictOrderedRing F] {n m : ℕ} {env : Env F n} {prm : Params F}
  {mem : Scaling F n m} {o : Mem F n m} {p : Pbm F n m} {fuel : ℕ}

/-- A copy as warm start is what `solve` models, whatever the members hold. -/
theorem solveAt_copy (x : Fin n → F) (y : Fin m → F) :
    solveAt env prm mem o p (copyOf x y) fuel = solve env prm mem p (some (x, y)) fuel := by
  unfold solveAt solve solveScaled
  have : ∀ s, o.warm p s (copyOf x y) = start p s (some (x, y)) := fun s => rfl
  simp only [this]
  generalize (if prm.scaling = true then scale env.sqrt p else some mem) = c
  cases c with
  | none => rfl
  | some s =>
    simp only
    cases loop env prm p s (step prm.alpha prm.sigma p s (rhoVec prm p s) (prepare env prm p s).1) fuel 0
      (prepare env prm p s).2 (start p s (some (x, y))) <;> rfl

/-- minimise `x^2 / 2 - x` subject to `-10 ≤ 1.0816 x ≤ 10`. -/
def aliasPbm : Pbm ℚ 1 1 := ⟨fun _ _ => 1, fun _ => -1, fun _ _ => 676 / 625, fun _ => .fin (-10), fun _ => .fin 10⟩

/-- The solver parameters of the witness: defaults, no polishing, two iterations. -/
def aliasPrm : Params ℚ := { Params.default with polish := false, maxIter := some 2 }

/-- **C97, negation.** The object holds the exact solution. Passing a copy of it as warm start returns it as `Optimal`; passing
`solver.sol()` itself does not: `z_` is computed from the primal that has just been scaled in place. -/
theorem qp_own_warmstart_differs : ∃ r r' : Sol ℚ 1 1 × Scaling ℚ 1 1, KKT aliasPbm (fun _ => 1) (fun _ => 0) ∧
    solveAt env1 aliasPrm Scaling.unit ⟨fun _ => 1, fun _ => 0, fun _ => 0⟩ aliasPbm (copyOf (fun _ => 1) (fun _ => 0)) 10 = .ok r ∧
    solveAt env1 aliasPrm Scaling.unit ⟨fun _ => 1, fun _ => 0, fun _ => 0⟩ aliasPbm own 10 = .ok r' ∧
    r.1.code = .optimal ∧ r.1.primal = (fun _ => 1) ∧ r'.1.code = .maxIterations ∧ r'.1.primal ≠ fun _ => 1 := by
  obtain ⟨r, h, h'⟩ := Out.test_iff (o := solveAt env1 aliasPrm Scaling.unit ⟨fun _ => 1, fun _ => 0, fun _ => 0⟩ aliasPbm
    (copyOf (fun _ => 1) (fun _ => 0)) 10) (f := fun r => decide (r.1.code = .optimal ∧ r.1.primal 0 = 1)) (by decide +kernel)
  obtain ⟨r', h1, h1'⟩ := Out.test_iff (o := solveAt env1 aliasPrm Scaling.unit ⟨fun _ => 1, fun _ => 0, fun _ => 0⟩ aliasPbm own 10)
    (f := fun r => decide (r.1.code = .maxIterations ∧ r.1.primal 0 ≠ 1)) (by decide +kernel)
  obtain ⟨a, b⟩ := of_decide_eq_true h'
  obtain ⟨a', b'⟩ := of_decide_eq_true h1'
  refine ⟨r, r', ?_, h, h1, a, ?_, a', fun hc => b' (by rw [hc])⟩
  · refine ⟨fun i => ?_, ?_, fun i => ⟨fun h => absurd h (lt_irrefl _), fun h => absurd h (lt_irrefl _)⟩⟩
    · simp [aliasPbm, lower, upper, Matrix.mulVec, dotProduct]; norm_num
    · funext j; simp [aliasPbm, Matrix.mulVec, dotProduct]
  · funext i; rw [Subsingleton.elim i 0]; exact b

/-- **C97, partial.** Without scaling (and after `analyze`) the warm start may be the solver's own solution. Missing: scaling, where the
claim is false (`qp_own_warmstart_differs`). -/
theorem qp_own_warmstart_unscaled_partial (hs : prm.scaling = false) :
    solveAt env prm Scaling.unit o p own fuel = solveAt env prm Scaling.unit o p (copyOf o.primal o.dual) fuel := by
  unfold solveAt
  have : o.warm p Scaling.unit own = o.warm p Scaling.unit (copyOf o.primal o.dual) := by
    simp [Mem.warm, Mem.setPrimal, Mem.setDual, Mem.setZ, own, copyOf, Scaling.unit]
  simp only [hs, Bool.false_eq_true, if_false, this]

/-- **C97.** With any scaling and wherever the warm start lives, `Optimal` without polishing still certifies the KKT conditions to
tolerance. -/
theorem qp_own_warmstart_certificate (hsq : SqrtPos env) (hm : mem.Pos) (hr : 0 < prm.rho) (hpol : prm.polish = false)
    (w : Mem F n m → (Fin n → F) × (Fin m → F)) {r : Sol F n m × Scaling F n m}
    (h : solveAt env prm mem o p w fuel = .ok r) (hc : r.1.code = .optimal) :
    ApproxKKT p prm.epsAbs prm.epsRel r.1.primal r.1.dual ∧ r.1.objective = QPSpec.cost p r.1.primal := by
  unfold solveAt at h
  split at h
  · cases h
  rename_i s hs
  have hpos : s.Pos := by
    split at hs
    · exact scale_pos hsq hs
    · cases hs; exact hm
  split at h
  · rename_i k ret it hl
    split at h
    · rename_i sol hcon
      cases h
      have hcode := conclude_code hcon
      rw [hc] at hcode
      have hret := code_optimal hcode.1.symm
      subst hret
      refine ⟨?_, hcode.2.2⟩
      rw [conclude_nopolish (Or.inl hpol)] at hcon
      cases hcon
      set next := step prm.alpha prm.sigma p s (rhoVec prm p s) (prepare env prm p s).1 with hnext
      have ht : ∀ i, next^[i + 1] (o.warm p s w) = next (next^[i] (o.warm p s w)) := fun i => Function.iterate_succ_apply' _ _ _
      obtain ⟨h1, -, h3⟩ := loop_ok (t := fun i => next^[i] (o.warm p s w)) ht (iter := 0) hl
      rcases h3 with ⟨-, h2, -⟩ | ⟨hk, h2, -, h3, -, -⟩
      · exfalso
        rcases prepare_cases env prm p s with ⟨_, h4⟩ | ⟨slv, _, h4⟩
        · rw [h4] at h2; cases h2
        · rw [h4] at h2
          have := precheck_code h2.symm
          cases this
      · obtain ⟨k, rfl⟩ : ∃ k', k = k' + 1 := ⟨k - 1, by omega⟩
        have hrow := precheck_none (prepare_none h2).1
        have hb := step_box (alpha := prm.alpha) (sigma := prm.sigma) (rho := rhoVec prm p s) (slv := (prepare env prm p s).1)
          hrow hpos.2.2 hpos.1 (fun i => rhoOf_pos hr _ _) (next^[k] (o.warm p s w))
        rw [← hnext, ← ht, ← h1] at hb
        unfold verdict at h3
        simp only [Nat.add_sub_cancel] at h3
        split at h3
        · rcases check_codes h3.symm with ⟨_, h4⟩ | ⟨h4, _⟩ | ⟨h4, _⟩ | ⟨h4, _⟩
          · rw [← h1] at h4
            obtain ⟨⟨rp, hrp, hrp'⟩, ⟨rd, hrd, hrd'⟩⟩ := optimalTest_spec h4
            exact ⟨_, rp, rd, hb.1, hb.2, hrp, hrp', hrd, hrd'⟩
          · cases h4
          · cases h4
          · cases h4
        · cases h3
    · cases h
    · cases h
  · cases h
  · cases h

/-- A run with the solver's own solution that ends `Optimal`. -/
example : ∃ r, solveAt env1 { Params.default with polish := false } Scaling.unit ⟨fun _ => 1 / 2, fun _ => 0, fun _ => 0⟩ lpPbm own 10 = .ok r ∧
    r.1.code = .optimal := by
  obtain ⟨r, h, h'⟩ := Out.test_iff (o := solveAt env1 { Params.default with polish := false } Scaling.unit
    ⟨fun _ => 1 / 2, fun _ => 0, fun _ => 0⟩ lpPbm own 10) (f := fun r => decide (r.1.code = .optimal)) (by decide +kernel)
  exact ⟨r, h, of_decide_eq_true h'⟩

end Verif.QP
