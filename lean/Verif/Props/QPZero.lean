import Verif.Props.QP
import Mathlib.LinearAlgebra.Matrix.NonsingularInverse
import Mathlib.Data.Real.Sqrt

/-!
# Problems whose solution is zero (C68)

With `q = 0` and zero feasible, a cold start and a start from zero give exactly zero, polished or not.
-/

set_option linter.unusedSectionVars false

namespace Verif.QP

open Matrix Verif.QPSpec

variable {F : Type*} [Field F] [LinearOrder F] [IsStrictOrderedRing F] {n m : ℕ}

theorem countActive_none (l : List (Fin m)) (c : ℕ × ℕ) : countActive (fun _ => false) (fun _ => false) l c = c := by
  induction l generalizing c with
  | nil => rfl
  | cons i l ih => obtain ⟨a, b⟩ := c; simp [countActive, ih]

theorem fillActive_none (nl : ℕ) (l : List (Fin m)) (lc uc : ℕ) (a : List (Option (Fin m))) :
    fillActive (fun _ => false) (fun _ => false) nl l lc uc a = a := by
  induction l with
  | nil => rfl
  | cons i l ih => simp [fillActive, ih]

theorem luIdx_none : luIdx (m := m) (fun _ => false) (fun _ => false) = (0, []) := by
  simp [luIdx, countActive_none, fillActive_none]

/-- Without active rows the regularised matrix of the polish step has only the zero solution of the homogeneous system. -/
theorem polish_zero {p : Pbm F n m} {s : Scaling F n m} {delta : F} (hP : Lin.PSD p.P) (hs : s.Pos) (hd : 0 < delta)
    (v : Fin n ⊕ Fin ([] : List (Fin m)).length → F)
    (hv : symUpper (polishH p s [] + polishReg delta ([] : List (Fin m)).length) *ᵥ v = 0) : v = 0 := by
  set w : Fin n → F := fun j => v (.inl j) with hw
  have hrow : ∀ i, s.c * s.sx i * (p.P *ᵥ (s.unX w)) i + delta * w i = 0 := by
    intro i
    have h1 := congrFun hv (.inl i)
    have : (symUpper (polishH p s [] + polishReg delta ([] : List (Fin m)).length) *ᵥ v) (.inl i) =
        s.c * s.sx i * (p.P *ᵥ (s.unX w)) i + delta * w i := by
      simp only [Matrix.mulVec, dotProduct, Fintype.sum_sum_type, symUpper, polishH, polishReg, Matrix.add_apply, Scaling.unX]
      have h2 : ∀ j : Fin n, (if i ≤ j then s.c * s.sx i * p.P i j * s.sx j + (if (Sum.inl i : Fin n ⊕ Fin ([] : List (Fin m)).length) = Sum.inl j then delta else 0)
          else s.c * s.sx j * p.P j i * s.sx i + (if (Sum.inl j : Fin n ⊕ Fin ([] : List (Fin m)).length) = Sum.inl i then delta else 0)) * v (.inl j) =
          s.c * s.sx i * (p.P i j * (s.sx j * w j)) + (if j = i then delta * w j else 0) := by
        intro j
        rw [hP.1.apply]
        by_cases hij : j = i
        · subst hij; simp [hw]; ring
        · have : ¬i = j := fun h => hij h.symm
          simp [hij, this, hw]
          split_ifs <;> ring
      rw [Finset.sum_congr rfl fun j _ => h2 j, Finset.sum_add_distrib, ← Finset.mul_sum]
      simp
    rw [this] at h1
    exact h1
  have hsum : s.c * ((s.unX w) ⬝ᵥ (p.P *ᵥ (s.unX w))) + delta * ∑ i, w i ^ 2 = 0 := by
    have : ∑ i, w i * (s.c * s.sx i * (p.P *ᵥ (s.unX w)) i + delta * w i) = 0 := Finset.sum_eq_zero fun i _ => by rw [hrow i, mul_zero]
    rw [← this, dotProduct, Finset.mul_sum, Finset.mul_sum, ← Finset.sum_add_distrib]
    refine Finset.sum_congr rfl fun i _ => ?_
    simp only [Scaling.unX]
    ring
  have h1 := mul_nonneg hs.1.le (hP.2 (s.unX w))
  have h2 : 0 ≤ ∑ i, w i ^ 2 := Finset.sum_nonneg fun i _ => sq_nonneg _
  have h3 : ∑ i, w i ^ 2 = 0 := by
    by_contra hc
    have := mul_pos hd (lt_of_le_of_ne h2 (Ne.symm hc))
    linarith
  rw [Finset.sum_eq_zero_iff_of_nonneg fun i _ => sq_nonneg _] at h3
  funext a
  rcases a with i | i
  · exact pow_eq_zero_iff two_ne_zero |>.mp (h3 i (Finset.mem_univ _))
  · exact i.elim0

/-- **C68, solver part.** If the linear cost is zero and zero is feasible, the solver returns exactly zero as `Optimal` after two iterations,
from a cold start and from zero. -/
theorem qp_zero_exact (env : Env F n) (prm : Params F) (p : Pbm F n m) (fuel : ℕ) (hsq : SqrtPos env) (hl : LdltOk env) (heps : 0 ≤ env.eps)
    (hP : Lin.PSD p.P) (hq : p.q = 0) (h0 : Feasible p 0) (hsig : 0 < prm.sigma) (hr : 0 < prm.rho) (hea : 0 ≤ prm.epsAbs) (her : 0 ≤ prm.epsRel)
    (hdel : 0 < prm.delta) (hsc : 2 ≤ prm.stopCheckIter) (hmax : ∀ e, prm.maxIter = some e → 2 ≤ e) (hdim : prm.scaling = true → n ≠ 0 ∧ m ≠ 0)
    (hf : ∀ s : Scaling F n m, s.Pos → env.factor m (kkt prm.sigma p s (rhoVec prm p s)) ≠ none) (hfuel : 3 ≤ fuel)
    (ws : Option ((Fin n → F) × (Fin m → F))) (hws : ws = none ∨ ws = some (0, 0)) :
    solveQP env prm p ws fuel = .ok ⟨.optimal, 2, 0, 0, 0⟩ := by
  have hK : KKT p 0 0 := by
    refine ⟨h0, by rw [hq]; simp, fun i => ⟨fun h => absurd h (lt_irrefl _), fun h => absurd h (lt_irrefl _)⟩⟩
  obtain ⟨s, hs⟩ := chosenScaling_some env prm p hdim
  have hpos := chosenScaling_pos hsq hs
  obtain ⟨slv, hslv⟩ := Option.ne_none_iff_exists'.1 (hf s hpos)
  have hprep : prepare env prm p s = (slv, none) := by
    rcases prepare_cases env prm p s with ⟨h1, -⟩ | ⟨slv', h1, h2⟩
    · rw [hslv] at h1; cases h1
    · rw [hslv] at h1; cases h1
      rw [h2, precheck_of_feasible h0]
  have hstart : start p s ws = ⟨0, 0, 0⟩ := by
    rcases hws with rfl | rfl
    · rfl
    · simp only [start]
      congr 1 <;> funext i <;> simp
  have hstart0 : start p s (some (0, 0)) = (⟨0, 0, 0⟩ : It F n m) := by
    simp only [start]
    congr 1 <;> funext i <;> simp
  have hfix : ∀ i, iterates prm p s slv ws i = ⟨0, 0, 0⟩ := by
    intro i
    induction i with
    | zero => exact hstart
    | succ i ih =>
      have := step_fix (alpha := prm.alpha) hP hpos hsig (fun _ => rhoOf_pos hr _ _) (hl _ _ _ hslv) hK
      rw [iterates_succ, ih]
      rw [hstart0] at this
      exact this
  have hverd : verdict env prm p s (iterates prm p s slv ws) 1 = some .optimal := by
    have h1 : 1 % prm.stopCheckIter = 1 := Nat.mod_eq_of_lt (by omega)
    unfold verdict check checkStopping
    rw [if_pos h1]
    have : optimalTest prm p (s.unX (iterates prm p s slv ws (1 + 1)).x)
        (s.unY (iterates prm p s slv ws (1 + 1)).y) (s.unZ (iterates prm p s slv ws (1 + 1)).z) = true := by
      have e1 : s.unX (0 : Fin n → F) = 0 := by funext i; simp [Scaling.unX]
      have e2 : s.unY (0 : Fin m → F) = 0 := by funext i; simp [Scaling.unY]
      have e3 : s.unZ (0 : Fin m → F) = 0 := by funext i; simp [Scaling.unZ]
      rw [hfix]
      dsimp only
      rw [e1, e2, e3]
      unfold optimalTest
      rw [hq]
      simp [norm_zero, hea]
    rw [this]; rfl
  have hverd0 : verdict env prm p s (iterates prm p s slv ws) 0 = none := by
    unfold verdict
    rw [if_neg (by simp)]
  have hloop : loop env prm p s (step prm.alpha prm.sigma p s (rhoVec prm p s) (prepare env prm p s).1) fuel 0
        (prepare env prm p s).2 (iterates prm p s (prepare env prm p s).1 ws 0) =
          .ok (2, some .optimal, iterates prm p s (prepare env prm p s).1 ws 2) := by
    rw [hprep]
    obtain ⟨f, rfl⟩ : ∃ f, fuel = f + 3 := ⟨fuel - 3, by omega⟩
    have m0 : prm.maxIter ≠ some 0 := fun h => by have := hmax 0 h; omega
    have m1 : prm.maxIter ≠ some 1 := fun h => by have := hmax 1 h; omega
    rw [loop, if_pos ⟨m0, rfl⟩, if_neg (by omega), ← iterates_succ]
    unfold verdict at hverd0 hverd
    rw [hverd0, loop, if_pos ⟨m1, rfl⟩, if_neg (by omega), ← iterates_succ]
    rw [show (0 + 1) = 1 from rfl]
    rw [hverd, loop, if_neg (by simp)]
  have hfin : finish p s 2 (some .optimal) 0 0 = ⟨.optimal, 2, 0, 0, 0⟩ := by
    have e1 : s.unX (0 : Fin n → F) = 0 := by funext i; simp [Scaling.unX]
    have e2 : s.unY (0 : Fin m → F) = 0 := by funext i; simp [Scaling.unY]
    simp only [finish, e1, e2, zero_dotProduct]
    rfl
  rw [solveQP_eq, hs]
  simp only
  rw [solveScaled_of_loop hloop, hprep, hfix]
  cases hpol : prm.polish with
  | false => rw [conclude_nopolish (Or.inl hpol), hfin]
  | true =>
    unfold conclude
    rw [if_pos ⟨rfl, hpol⟩]
    have hlow : lowActive env.eps p (0 : Fin m → F) = fun _ => false := by
      funext i
      have : ¬(0 : F) < -100 * env.eps := by linarith
      simp only [lowActive, Pi.zero_apply, this, decide_false, Bool.false_and]
    have hup : upActive env.eps p (0 : Fin m → F) = fun _ => false := by
      funext i
      have : ¬100 * env.eps < (0 : F) := by linarith
      simp only [upActive, Pi.zero_apply, this, decide_false, Bool.false_and]
    have hpolish : polish env prm p s (0 : Fin m → F) = .ok none ∨ polish env prm p s (0 : Fin m → F) = .ok (some (0, 0)) := by
      unfold polish
      rw [hlow, hup, luIdx_none]
      simp only [List.mapM_nil, Option.pure_def]
      unfold polishWith
      cases hfac : env.factor ([] : List (Fin m)).length (polishH p s [] + polishReg prm.delta ([] : List (Fin m)).length) with
      | none => exact Or.inl rfl
      | some slv' =>
        right
        have hz : slv' 0 = 0 := polish_zero hP hpos hdel _ (hl _ _ _ hfac 0)
        have hrhs : polishRhs p s 0 ([] : List (Fin m)) = 0 := by
          funext a
          rcases a with j | j
          · simp [polishRhs, hq]
          · exact j.elim0
        have href : ∀ k, refine (symUpper (polishH p s [])) (polishRhs p s 0 ([] : List (Fin m))) slv' k 0 = 0 := by
          intro k
          induction k with
          | zero => rfl
          | succ k ih => rw [refine, hrhs]; simp only [Matrix.mulVec_zero, sub_zero, hz, add_zero]; rw [hrhs] at ih; exact ih
        simp only [href]
        rfl
    rcases hpolish with h | h <;> rw [h] <;> simp only [hfin]

/-! ### The hypotheses are met by an environment that works for all sizes -/

/-- Exact linear algebra over the reals: the factorisation succeeds on every nonsingular matrix. -/
noncomputable def realEnv (n : ℕ) : Env ℝ n where
  sqrt := Real.sqrt
  eps := 1 / 2 ^ 52
  factor _ H := by
    classical
    exact if IsUnit (symUpper H).det then some fun b => (symUpper H)⁻¹ *ᵥ b else none
  t0 := 0
  now := fun _ => 0

theorem realEnv_sqrt (n : ℕ) : SqrtPos (realEnv n) := fun _ h => Real.sqrt_pos.mpr h

theorem realEnv_ldlt (n : ℕ) : LdltOk (realEnv n) := by
  intro k H slv h b
  simp only [realEnv] at h
  split at h
  · rename_i hd
    cases h
    rw [Matrix.mulVec_mulVec, Matrix.mul_nonsing_inv _ hd, Matrix.one_mulVec]
  · cases h

theorem realEnv_finds (n : ℕ) (prm : Params ℝ) (hsig : 0 < prm.sigma) (hr : 0 < prm.rho) (m : ℕ) (p : Pbm ℝ n m) (hP : Lin.PSD p.P)
    (s : Scaling ℝ n m) (hs : s.Pos) : (realEnv n).factor m (kkt prm.sigma p s (rhoVec prm p s)) ≠ none := by
  have hu : IsUnit (symUpper (kkt prm.sigma p s (rhoVec prm p s))).det := by
    rw [← Matrix.isUnit_iff_isUnit_det, ← Matrix.mulVec_injective_iff_isUnit]
    intro v w h
    exact kkt_injective hP hs hsig (fun _ => rhoOf_pos hr _ _) h
  simp only [realEnv]
  rw [if_pos hu]
  exact Option.some_ne_none _

/-- With default parameters: minimise `x^2 / 2` subject to `x ≤ 1`. -/
example : solveQP (realEnv 1) Params.default (⟨fun _ _ => 1, fun _ => 0, fun _ _ => 1, fun _ => .neg, fun _ => .fin 1⟩ : Pbm ℝ 1 1) none 3 =
    .ok ⟨.optimal, 2, 0, 0, 0⟩ := by
  have hP : Lin.PSD (fun _ _ => 1 : Matrix (Fin 1) (Fin 1) ℝ) := ⟨rfl, fun v => by
    simp only [dotProduct, Matrix.mulVec, Finset.univ_unique, Fin.default_eq_zero, Finset.sum_singleton, one_mul]; exact mul_self_nonneg _⟩
  refine qp_zero_exact (realEnv 1) Params.default _ 3 (realEnv_sqrt 1) (realEnv_ldlt 1) (by simp [realEnv]) hP rfl ?_ ?_ ?_ ?_ ?_ ?_ ?_ ?_ ?_ ?_
    le_rfl none (Or.inl rfl)
  · intro i
    rw [Matrix.mulVec_zero]
    exact ⟨trivial, zero_le_one⟩
  · norm_num [Params.default]
  · norm_num [Params.default]
  · norm_num [Params.default]
  · norm_num [Params.default]
  · norm_num [Params.default]
  · norm_num [Params.default]
  · intro e h; simp [Params.default] at h
  · intro _; exact ⟨one_ne_zero, one_ne_zero⟩
  · intro s hs
    exact realEnv_finds 1 Params.default (by norm_num [Params.default]) (by norm_num [Params.default]) 1 _ hP s hs

end Verif.QP
