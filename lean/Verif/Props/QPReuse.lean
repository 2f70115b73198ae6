import Verif.Proofs.QPReuse
import Verif.Proofs.QPWitness

/-! # Reuse of a solver object (C14) -/

set_option linter.unusedSectionVars false

namespace Verif.QP

open Matrix Verif.QPSpec

variable {F : Type*} [Field F] [LinearOrder F] [IsStrictOrderedRing F] {n m : ℕ} {env : Env F n} {prm : Params F}

/-- **C14.** After every history of `analyze`, copies and solves of problems with one sparsity pattern, a solve on the
object gives exactly what `solve_qp` gives on a fresh object: the same result, no result, or undefined behaviour. -/
theorem qp_reuse_history_independent (hup : UpperOnly env) {t : Pattern n m} {ops : List (Op F n m)}
    (hops : ∀ t' p ws fuel, Op.solve t' p ws fuel ∈ ops → t' = t ∧ t.Fits p) {o : Solver F n m}
    (hrun : Solver.new.run env prm ops = .ok o) {p : Pbm F n m} (hfit : t.Fits p)
    (ws : Option ((Fin n → F) × (Fin m → F))) (fuel : ℕ) :
    (∀ sol, (∃ o', o.solve env prm t p ws fuel = .ok (sol, o')) ↔ solveQP env prm p ws fuel = .ok sol) ∧
    (o.solve env prm t p ws fuel = .undef ↔ solveQP env prm p ws fuel = .undef) := by
  obtain ⟨h1, h2, h3⟩ := solve_good hup (run_good hup ops hops (good_new prm t) hrun) hfit ws fuel
  exact ⟨fun sol => ⟨fun ⟨o', h⟩ => (h1 _ h).2, h2 sol⟩, h3⟩

/-- **C14.** Two histories lead to the same result. -/
theorem qp_reuse_two_histories (hup : UpperOnly env) {t : Pattern n m} {ops ops' : List (Op F n m)}
    (hops : ∀ t' p ws fuel, Op.solve t' p ws fuel ∈ ops → t' = t ∧ t.Fits p)
    (hops' : ∀ t' p ws fuel, Op.solve t' p ws fuel ∈ ops' → t' = t ∧ t.Fits p) {o o' : Solver F n m}
    (hrun : Solver.new.run env prm ops = .ok o) (hrun' : Solver.new.run env prm ops' = .ok o')
    {p : Pbm F n m} (hfit : t.Fits p) (ws : Option ((Fin n → F) × (Fin m → F))) (fuel : ℕ) {r r' : Sol F n m × Solver F n m}
    (h : o.solve env prm t p ws fuel = .ok r) (h' : o'.solve env prm t p ws fuel = .ok r') : r.1 = r'.1 := by
  have e := ((qp_reuse_history_independent hup hops hrun hfit ws fuel).1 r.1).1 ⟨r.2, h⟩
  have e' := ((qp_reuse_history_independent hup hops' hrun' hfit ws fuel).1 r'.1).1 ⟨r'.2, h'⟩
  rw [e] at e'
  simpa using e'

/-- The factorisation of `env1` reads the upper triangle only. -/
theorem env1_upper : UpperOnly env1 := by
  intro k H H' h
  have e : ∀ a b, symUpper H a b = symUpper H' a b := fun a b => by rw [h]
  match k, H, H', h, e with
  | 0, H, H', _, e =>
    have h1 := e (.inl 0) (.inl 0)
    simp only [symUpper, le_refl, if_true] at h1
    simp only [env1, cramer1, h1]
  | 1, H, H', _, e =>
    have h1 := e (.inl 0) (.inl 0)
    have h2 := e (.inl 0) (.inr 0)
    have h3 := e (.inr 0) (.inr 0)
    simp only [symUpper, le_refl, if_true] at h1 h2 h3
    simp only [env1, cramer1, h1, h2, h3]
  | k + 2, H, H', _, _ => rfl

/-- A history that meets the hypotheses: solve one problem, copy, solve another, analyze. -/
example : ∃ o, Solver.new.run env1 Params.default [.solve ⟨[(0, 0)], [(0, 0)]⟩ flatPbm none 10, .copy,
      .solve ⟨[(0, 0)], [(0, 0)]⟩ lpPbm none 10, .analyze] = .ok o ∧
    Pattern.Fits ⟨[(0, 0)], [(0, 0)]⟩ flatPbm ∧ Pattern.Fits ⟨[(0, 0)], [(0, 0)]⟩ lpPbm := by
  obtain ⟨o, h, -⟩ := Out.test_iff (o := Solver.new.run env1 Params.default [.solve ⟨[(0, 0)], [(0, 0)]⟩ flatPbm none 10, .copy,
      .solve ⟨[(0, 0)], [(0, 0)]⟩ lpPbm none 10, .analyze]) (f := fun _ => true) (by decide +kernel)
  refine ⟨o, h, ?_⟩
  constructor <;> constructor <;> intro i j hij <;> exact absurd (by simp [Subsingleton.elim i 0, Subsingleton.elim j 0]) hij

/-- **C14, limit.** `analyze` does not renew the symbolic factorisation: after a solve, `analyze` for a problem with
another pattern and a solve of that problem hand Eigen a matrix that does not fit its analysis. -/
theorem qp_reuse_new_pattern_undefined {t t' : Pattern n m} {p p' : Pbm F n m} (hfit : t.Fits p) (hfit' : t'.Fits p')
    (hne : kktPattern t' ≠ kktPattern t) {ws ws' : Option ((Fin n → F) × (Fin m → F))} {fuel fuel' : ℕ}
    {r : Sol F n m × Solver F n m} (h : Solver.new.solve env prm t p ws fuel = .ok r) :
    r.2.analyze.solve env prm t' p' ws' fuel' = .undef := by
  have han : r.2.analysed = some (kktPattern t) := by
    unfold Solver.solve at h
    split at h
    · cases h
    · rename_i s hs
      simp only at h
      have hpat : (Solver.new.filled prm t p s).pattern = kktPattern t :=
        (fillH_spec (sigma := prm.sigma) hfit s (rhoVec prm p s) (good_new prm t).clean).1
      split at h
      · cases h
      · split at h
        · split at h
          · cases h
            simp only [Solver.new, Solver.analyze, Option.getD_none]
            exact congrArg some hpat
          · cases h
          · cases h
        · cases h
        · cases h
  unfold Solver.solve
  split
  · rfl
  · rename_i s hs
    have hpat : (r.2.analyze.filled prm t' p' s).pattern = kktPattern t' :=
      (fillH_spec (sigma := prm.sigma) hfit' s (rhoVec prm p' s) (M := fun _ _ => none) (fun a b => Or.inl rfl)).1
    have e : r.2.analyze.analysed = some (kktPattern t) := han
    simp only [e, hpat, Option.getD_some]
    rw [if_pos (Ne.symm hne)]

/-- The hypotheses are met: first a problem whose only row is empty, then one with an entry in it. -/
example : ∃ r, Solver.new.solve env1 Params.default ⟨[], []⟩ (⟨0, 0, 0, fun _ => .fin (-1), fun _ => .fin 1⟩ : Pbm ℚ 1 1) none 10 = .ok r ∧
    kktPattern (⟨[], [(0, 0)]⟩ : Pattern 1 1) ≠ kktPattern ⟨[], []⟩ := by
  obtain ⟨o, h, -⟩ := Out.test_iff (o := Solver.new.solve env1 Params.default ⟨[], []⟩
    (⟨0, 0, 0, fun _ => .fin (-1), fun _ => .fin 1⟩ : Pbm ℚ 1 1) none 10) (f := fun _ => true) (by decide +kernel)
  exact ⟨o, h, fun hc => by have := congrFun (congrFun hc (.inl 0)) (.inr 0); simp [kktPattern] at this⟩

end Verif.QP
