import Verif.Proofs.QPFix
import Mathlib.Data.Rat.Defs
import Mathlib.Algebra.Order.Ring.Rat
import Mathlib.Tactic.FinCases
import Mathlib.Data.Fintype.Sum

/-! # Concrete environments over the rationals for examples and counterexamples -/

namespace Verif.QP

open Matrix Verif.QPSpec

/-- Newton's method for the integer square root. -/
def newton (a : ℕ) : ℕ → ℕ → ℕ
  | 0, x => x
  | k + 1, x => if x * x ≤ a then x else newton a k ((x + a / x) / 2)

/-- Square root for examples: positive on positive arguments, exact on squares of rationals of moderate size. -/
def ratSqrt (a : ℚ) : ℚ := (max 1 (newton a.num.toNat 100 a.num.toNat) : ℕ) / (max 1 (newton a.den 100 a.den) : ℕ)

example : ratSqrt 1000000 = 1000 ∧ ratSqrt (9 / 16) = 3 / 4 := by decide +kernel

theorem ratSqrt_pos {a : ℚ} (_ : 0 < a) : 0 < ratSqrt a := by
  unfold ratSqrt
  refine div_pos ?_ ?_ <;> exact_mod_cast lt_of_lt_of_le one_pos (le_max_left _ _)

/-- Cramer's rule for one variable and at most one constraint. -/
def cramer1 : (k : ℕ) → Matrix (Fin 1 ⊕ Fin k) (Fin 1 ⊕ Fin k) ℚ → Option ((Fin 1 ⊕ Fin k → ℚ) → (Fin 1 ⊕ Fin k → ℚ))
  | 0, H => if H (.inl 0) (.inl 0) = 0 then none else some fun b _ => b (.inl 0) / H (.inl 0) (.inl 0)
  | 1, H =>
    let a := H (.inl 0) (.inl 0)
    let b := H (.inl 0) (.inr 0)
    let d := H (.inr 0) (.inr 0)
    if a * d - b * b = 0 then none
    else some fun r => Sum.elim (fun _ => (d * r (.inl 0) - b * r (.inr 0)) / (a * d - b * b))
      (fun _ => (a * r (.inr 0) - b * r (.inl 0)) / (a * d - b * b))
  | _, _ => none

/-- An environment with exact arithmetic, one variable. -/
def env1 : Env ℚ 1 := ⟨ratSqrt, 1 / 4503599627370496, cramer1, 0, fun _ => 0⟩

theorem env1_sqrt : SqrtPos env1 := fun _ h => ratSqrt_pos h

theorem env1_ldlt : LdltOk env1 := by
  intro k H slv h b
  match k, H, slv, h, b with
  | 0, H, slv, h, b =>
    simp only [env1, cramer1] at h
    split at h
    · cases h
    · rename_i h0
      cases h
      funext a
      match a with
      | .inl i =>
        have : i = 0 := Subsingleton.elim _ _
        subst this
        simp [Matrix.mulVec, dotProduct, symUpper]
        field_simp
      | .inr i => exact i.elim0
  | 1, H, slv, h, b =>
    simp only [env1, cramer1] at h
    split at h
    · cases h
    · rename_i h0
      cases h
      funext a
      match a with
      | .inl i =>
        have : i = 0 := Subsingleton.elim _ _
        subst this
        simp [Matrix.mulVec, dotProduct, symUpper]
        rw [← pow_two] at h0
        have h1 : H (.inr 0) (.inr 0) * H (.inl 0) (.inl 0) - H (.inl 0) (.inr 0) ^ 2 ≠ 0 := by rw [mul_comm]; exact h0
        field_simp
        ring
      | .inr i =>
        have : i = 0 := Subsingleton.elim _ _
        subst this
        simp [Matrix.mulVec, dotProduct, symUpper]
        rw [← pow_two] at h0
        have h1 : H (.inr 0) (.inr 0) * H (.inl 0) (.inl 0) - H (.inl 0) (.inr 0) ^ 2 ≠ 0 := by rw [mul_comm]; exact h0
        field_simp
        ring
  | k + 2, H, slv, h, b => simp [env1, cramer1] at h

/-- A test on the value of a run. -/
def Out.test {α : Type*} (o : Out α) (f : α → Bool) : Bool :=
  match o with
  | .ok a => f a
  | _ => false

theorem Out.test_iff {α : Type*} {o : Out α} {f : α → Bool} (h : o.test f = true) : ∃ a, o = .ok a ∧ f a = true := by
  cases o with
  | ok a => exact ⟨a, rfl, h⟩
  | undef => cases h
  | timeout => cases h

/-- minimise `5e-4 x` over `-1 ≤ x ≤ 1`. -/
def lpPbm : Pbm ℚ 1 1 := ⟨0, fun _ => 1 / 2000, 1, fun _ => .fin (-1), fun _ => .fin 1⟩

/-- minimise `0` subject to `1 ≤ x`. -/
def halfLinePbm : Pbm ℚ 1 1 := ⟨0, 0, 1, fun _ => .fin 1, fun _ => .pos⟩

/-- minimise `x^2 / 2e12` subject to `1 ≤ 1e-6 x ≤ 2`. -/
def flatPbm : Pbm ℚ 1 1 := ⟨fun _ _ => 1 / 1000000000000, 0, fun _ _ => 1 / 1000000, fun _ => .fin 1, fun _ => .fin 2⟩

theorem lp_run : ∃ sol, solveQP env1 Params.default lpPbm none 10 = .ok sol ∧
    sol.code = .optimal ∧ sol.iter = 2 ∧ sol.primal 0 = -2500 ∧ sol.dual 0 = 0 := by
  obtain ⟨sol, h, h'⟩ := Out.test_iff (o := solveQP env1 Params.default lpPbm none 10)
    (f := fun sol => decide (sol.code = .optimal ∧ sol.iter = 2 ∧ sol.primal 0 = -2500 ∧ sol.dual 0 = 0)) (by decide +kernel)
  exact ⟨sol, h, of_decide_eq_true h'⟩

theorem halfLine_run : ∃ sol, solveQP env1 Params.default halfLinePbm none 10 = .ok sol ∧
    sol.code = .dualInfeasible ∧ sol.iter = 2 := by
  obtain ⟨sol, h, h'⟩ := Out.test_iff (o := solveQP env1 Params.default halfLinePbm none 10)
    (f := fun sol => decide (sol.code = .dualInfeasible ∧ sol.iter = 2)) (by decide +kernel)
  exact ⟨sol, h, of_decide_eq_true h'⟩

theorem flat_run : ∃ sol, solveQP env1 Params.default flatPbm none 10 = .ok sol ∧
    sol.code = .primalInfeasible ∧ sol.iter = 2 := by
  obtain ⟨sol, h, h'⟩ := Out.test_iff (o := solveQP env1 Params.default flatPbm none 10)
    (f := fun sol => decide (sol.code = .primalInfeasible ∧ sol.iter = 2)) (by decide +kernel)
  exact ⟨sol, h, of_decide_eq_true h'⟩

/-! ### Two variables, diagonal systems -/

/-- Off-diagonal entries of the upper triangle vanish and the diagonal does not. -/
def IsDiagUpper {k : ℕ} (H : Matrix (Fin 2 ⊕ Fin k) (Fin 2 ⊕ Fin k) ℚ) : Bool :=
  decide (∀ a, decide (∀ b, (a ≠ b → symUpper H a b = 0) ∧ symUpper H a a ≠ 0) = true)

/-- An environment that factorises diagonal systems only. -/
def env2 : Env ℚ 2 := ⟨ratSqrt, 1 / 4503599627370496,
  fun _ H => if IsDiagUpper H then some fun b a => b a / symUpper H a a else none, 0, fun _ => 0⟩

theorem env2_ldlt : LdltOk env2 := by
  intro k H slv h b
  simp only [env2] at h
  split at h
  · rename_i hd
    cases h
    have hd := fun a => of_decide_eq_true (of_decide_eq_true hd a)
    funext a
    rw [Matrix.mulVec, dotProduct, Finset.sum_eq_single a]
    · have := (hd a a).2
      field_simp
    · intro c _ hc
      rw [(hd a c).1 (Ne.symm hc), zero_mul]
    · intro hc; exact absurd (Finset.mem_univ a) hc
  · cases h

theorem env2_upper (k : ℕ) (H H' : Matrix (Fin 2 ⊕ Fin k) (Fin 2 ⊕ Fin k) ℚ) (h : symUpper H = symUpper H') :
    env2.factor k H = env2.factor k H' := by
  have hd : IsDiagUpper H = IsDiagUpper H' := by
    unfold IsDiagUpper
    rw [h]
  simp only [env2, hd, h]

/-- minimise `(|x|^2) / 2 - x_0 - x_1` with one unconstrained row; `a` is the entry of `P` below the diagonal. -/
def sepPbm (a : ℚ) : Pbm ℚ 2 1 :=
  ⟨fun i j => if i = j then 1 else if j < i then a else 0, fun _ => -1, 0, fun _ => .neg, fun _ => .pos⟩

end Verif.QP
