import Verif.Props.QPRelabel
import Verif.Props.QPZero

/-! # The result does not depend on the factorisation (C133) -/

set_option linter.unusedSectionVars false

namespace Verif.QP

open Matrix Verif.QPSpec

variable {F : Type*} [Field F] [LinearOrder F] [IsStrictOrderedRing F] {n m : ℕ}

/-- Two factorisations of a nonsingular matrix solve in the same way. -/
theorem slv_unique {env env' : Env F n} (hl : LdltOk env) (hl' : LdltOk env') {k : ℕ} {H : Matrix (Fin n ⊕ Fin k) (Fin n ⊕ Fin k) F} (hd : (symUpper H).det ≠ 0)
    {slv slv' : (Fin n ⊕ Fin k → F) → (Fin n ⊕ Fin k → F)} (h : env.factor k H = some slv) (h' : env'.factor k H = some slv') : slv = slv' := by
  funext b
  have e : symUpper H *ᵥ (slv b - slv' b) = 0 := by rw [mulVec_sub, hl _ _ _ h, hl' _ _ _ h', sub_self]
  by_contra hne
  exact hd (Matrix.exists_mulVec_eq_zero_iff.1 ⟨slv b - slv' b, sub_ne_zero.2 hne, e⟩)

theorem factor_same {env env' : Env F n} (hl : LdltOk env) (hl' : LdltOk env') (hf : FactorsAll env) (hf' : FactorsAll env') {k : ℕ}
    {H : Matrix (Fin n ⊕ Fin k) (Fin n ⊕ Fin k) F} (hd : (symUpper H).det ≠ 0) : env.factor k H = env'.factor k H := by
  obtain ⟨slv, h⟩ := Option.ne_none_iff_exists'.1 (hf k H hd)
  obtain ⟨slv', h'⟩ := Option.ne_none_iff_exists'.1 (hf' k H hd)
  rw [h, h', slv_unique hl hl' hd h h']

theorem loop_same {env env' : Env F n} {prm : Params F} (ht : prm.maxTime = none) (p : Pbm F n m) (s : Scaling F n m) (next : It F n m → It F n m) (fuel : ℕ) :
    ∀ iter ret it, loop env prm p s next fuel iter ret it = loop env' prm p s next fuel iter ret it := by
  induction fuel with
  | zero => intro _ _ _; rfl
  | succ fuel ih =>
    intro iter ret it
    have hc : ∀ a b, check env prm p s iter a b = check env' prm p s iter a b := fun a b => by
      unfold check
      rw [ht]
    rw [loop, loop, hc, ih]

/-- **C133, any factorisation.** For convex programs and without a limit on time, two solvers that differ in the factorisation and in the clock return the same: codes, numbers of iterations,
solutions, multipliers and objectives. -/
theorem qp_any_factorisation {env env' : Env F n} {prm : Params F} {p : Pbm F n m} (hsq : SqrtPos env) (hl : LdltOk env) (hl' : LdltOk env') (hf : FactorsAll env) (hf' : FactorsAll env')
    (hs : prm.scaling = true → env.sqrt = env'.sqrt) (he : prm.polish = true → env.eps = env'.eps) (ht : prm.maxTime = none) (hsig : 0 < prm.sigma) (hr : 0 < prm.rho)
    (hd : prm.polish = true → 0 < prm.delta) (hP : Lin.PSD p.P) (ws : Option ((Fin n → F) × (Fin m → F))) (fuel : ℕ) :
    solveQP env prm p ws fuel = solveQP env' prm p ws fuel := by
  have hc : chosenScaling env prm p = chosenScaling env' prm p := by
    unfold chosenScaling
    cases h : prm.scaling with
    | true => rw [hs h]
    | false => rfl
  rw [solveQP_eq, solveQP_eq, ← hc]
  cases h : chosenScaling env prm p with
  | none => rfl
  | some s =>
    have hpos := chosenScaling_pos hsq h
    have hprep : prepare env prm p s = prepare env' prm p s := by
      unfold prepare
      rw [factor_same hl hl' hf hf' (kkt_det hP hpos hsig hr)]
    have hpol : prm.polish = true → ∀ y, polish env prm p s y = polish env' prm p s y := fun hp y => by
      have hw : ∀ nl L, polishWith env prm p s y nl L = polishWith env' prm p s y nl L := fun nl L => by
        unfold polishWith
        rw [factor_same hl hl' hf hf' (qp_polish_nonsingular (hd hp) hP hpos L)]
      unfold polish
      rw [he hp]
      simp only [hw]
    have hcon : ∀ iter ret it, conclude env prm p s iter ret it = conclude env' prm p s iter ret it := fun iter ret it => by
      unfold conclude
      split_ifs with hh
      · rw [hpol hh.2]
      · rfl
    simp only
    unfold solveScaled
    rw [hprep, loop_same (env' := env') ht]
    simp only [hcon]

/-! ### Two factorisations -/

theorem realEnv_all (n : ℕ) : FactorsAll (realEnv n) := fun k H h => by
  simp only [realEnv]
  rw [if_pos (isUnit_iff_ne_zero.2 h)]
  exact Option.some_ne_none _

/-- Cramer's rule, on another clock. -/
noncomputable def cramerEnv (n : ℕ) : Env ℝ n where
  sqrt := Real.sqrt
  eps := 1 / 2 ^ 52
  factor _ H := by
    classical
    exact if (symUpper H).det = 0 then none else some fun b => (symUpper H).det⁻¹ • (symUpper H).cramer b
  t0 := 5
  now := fun k => k

theorem cramerEnv_ldlt (n : ℕ) : LdltOk (cramerEnv n) := by
  intro k H slv h b
  simp only [cramerEnv] at h
  split at h
  · cases h
  · rename_i hd
    cases h
    rw [Matrix.mulVec_smul, Matrix.mulVec_cramer, smul_smul, inv_mul_cancel₀ hd, one_smul]

theorem cramerEnv_all (n : ℕ) : FactorsAll (cramerEnv n) := fun k H h => by
  simp only [cramerEnv]
  rw [if_neg h]
  exact Option.some_ne_none _

/-- With default parameters, for every size and every convex program. -/
example (n m : ℕ) (p : Pbm ℝ n m) (hP : Lin.PSD p.P) (fuel : ℕ) : solveQP (realEnv n) Params.default p none fuel = solveQP (cramerEnv n) Params.default p none fuel :=
  qp_any_factorisation (realEnv_sqrt n) (realEnv_ldlt n) (cramerEnv_ldlt n) (realEnv_all n) (cramerEnv_all n) (fun _ => rfl) (fun _ => rfl) rfl (by norm_num [Params.default])
    (by norm_num [Params.default]) (fun _ => by norm_num [Params.default]) hP none fuel

end Verif.QP
