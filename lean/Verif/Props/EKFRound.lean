import Verif.Proofs.EKFRound
import Verif.Props.EKF

/-!
# C98: the Kalman filter in rounded arithmetic
-/

namespace Verif.EKF

open Matrix EKFSpec Lin Verif.QP Verif.QPSpec

universe v

section

variable {G : Type*} {F : Type v} {n : ℕ} [Field F] [LinearOrder F] [IsStrictOrderedRing F]

/-- **C98.** Without rounding this model and that of `Model/EKF.lean` agree on every history. -/
theorem ekf_rounded_exact (env : Env G F n) (fuel : ℕ) (ops : List (Op G F n)) : ∀ s : State G F n,
    runR Arith.exact env fuel s ops = run env fuel s ops := by
  have hp : ∀ (d : Dyn G F n) (Q : Mat n n F) tau dt s, predictR Arith.exact env d Q tau dt fuel s = predict env d Q tau dt fuel s := by
    intro d Q tau dt s
    unfold predictR predict
    rw [predictLoopR_exact, show Arith.exact.fl (2 * tau) = 2 * tau from rfl]
    cases predictLoop env d Q tau (dt.getD (2 * tau)) fuel 0 s with
    | none => rfl
    | some r => simp only [odeStepR_exact]; rfl
  induction ops with
  | nil => intro s; rfl
  | cons o os ih =>
    intro s
    have h : stepR Arith.exact env fuel s o = step env fuel s o := by
      cases o with
      | reset g P => rfl
      | predict d Q tau dt => exact hp d Q tau dt s
      | update z R => simp only [stepR, step, updateR_exact]
    simp only [runR, run, h, ih]

/-- **C98.** Symmetry is exact: in every arithmetic whatsoever, and whatever the group operations, derivatives and the linear solver return, the
covariance after any history of operations is symmetric to the last bit, if it was and if all reset covariances are. -/
theorem ekf_rounded_symmetric (ar : Arith F) (env : Env G F n) (fuel : ℕ) (ops : List (Op G F n)) :
    ∀ (s s' : State G F n), s.P.IsSymm → ResetsSymm ops → runR ar env fuel s ops = some s' → s'.P.IsSymm := by
  induction ops with
  | nil => intro s s' h _ hr; simp only [runR, Option.some.injEq] at hr; subst hr; exact h
  | cons o os ih =>
    intro s s' h hres hr
    simp only [runR, Option.bind_eq_some_iff] at hr
    obtain ⟨s1, h1, h2⟩ := hr
    refine ih s1 s' ?_ (fun g P hm => hres g P (List.mem_cons_of_mem _ hm)) h2
    cases o with
    | reset g P =>
      simp only [stepR, reset, Option.some.injEq] at h1
      subst h1
      exact hres g P List.mem_cons_self
    | predict d Q tau dt =>
      simp only [stepR, predictR] at h1
      split at h1
      · cases h1
      · rename_i t s2 he
        cases h1
        exact odeStepR_isSymm ar _ _ _ _ _ _ (predictLoopR_isSymm ar env d Q _ _ fuel 0 s (t, s2) h he)
    | update z R =>
      simp only [stepR, updateR, Option.some.injEq] at h1
      subst h1
      exact symU_isSymm _

/-- **C98.** Only the upper triangle of the process noise is read, in every arithmetic. -/
theorem ekf_rounded_upper_Q (ar : Arith F) (env : Env G F n) (d : Dyn G F n) (Q Q' : Mat n n F) (hQ : UpperEq Q Q') (tau : F)
    (dt : Option F) (fuel : ℕ) (s : State G F n) :
    predictR ar env d Q tau dt fuel s = predictR ar env d Q' tau dt fuel s := by
  have hstep : ∀ (s : State G F n) t h, odeStepR ar env d Q s t h = odeStepR ar env d Q' s t h := by
    intro s t h
    unfold odeStepR
    rw [show covRhsR ar env d Q s.g = covRhsR ar env d Q' s.g from
      funext fun t => funext fun P => symU_congr fun i j hij => by simp only [hQ i j hij]]
  have hloop : ∀ dtv f t s, predictLoopR ar env d Q tau dtv f t s = predictLoopR ar env d Q' tau dtv f t s := by
    intro dtv f
    induction f with
    | zero => intros; rfl
    | succ f ih => intro t s; unfold predictLoopR; rw [hstep, ih]
  unfold predictR
  rw [hloop]
  cases predictLoopR ar env d Q' tau (dt.getD (ar.fl (2 * tau))) fuel 0 s with
  | none => rfl
  | some r => simp only [hstep]

/-- **C98.** Only the upper triangle of the measurement noise is read, in every arithmetic. -/
theorem ekf_rounded_upper_R (ar : Arith F) (env : Env G F n) (z : Meas G F n) (R R' : Mat z.m z.m F) (hR : UpperEq R R')
    (s : State G F n) : updateR ar env z R s = updateR ar env z R' s := by
  unfold updateR gainR
  simp only
  rw [show innovR ar s.P (z.jac s.g) R = innovR ar s.P (z.jac s.g) R' from symU_congr fun i j hij => by rw [hR i j hij]]

variable {ar : Arith F} {u : F}

/-- **C99** (partial).  FULL CLAIM: in rounded arithmetic `predict` with a positive step returns; false, see `ekf_rounded_predict_hangs`.
Proved: it returns, after at most `2 tau / dt` passes and one more step, whenever the rounding unit resolves the step
(`2 u (tau + dt) ≤ dt`); it then has taken `k` steps of length `dt` at the times of the rounded clock, none of which starts at or after
`tau` and the `i`-th of which starts at `i * dt` up to `i` roundings, and one step over the remainder. Missing: unresolved steps. -/
theorem ekf_rounded_predict_returns_partial (hr : Rounds ar u) (env : Env G F n) (d : Dyn G F n) (Q : Mat n n F) {tau dt : F} (hdt : 0 < dt)
    (htau : 0 ≤ tau) (hres : 2 * u * (tau + dt) ≤ dt) (s : State G F n) (N : ℕ) (hN : 2 * tau ≤ N * dt) :
    ∃ k, predictR ar env d Q tau (some dt) (N + 1) s =
        some (odeStepR ar env d Q (states ar.fl (odeStepR ar env d Q) dt s k) (clock ar.fl dt k) (ar.fl (tau - clock ar.fl dt k))) ∧
      tau ≤ clock ar.fl dt (k + 1) ∧ (∀ i, 1 ≤ i → i ≤ k → clock ar.fl dt i < tau) ∧
      ∀ i, |clock ar.fl dt i - i * dt| ≤ amp u i * (i * dt) := by
  obtain ⟨r, h⟩ := predictLoopR_returns hr env d Q hdt htau hres s N 0 htau (by simp only [clock]; linarith)
  obtain ⟨k, _, rfl, h2, h3⟩ := predictLoopR_walk env d Q tau dt s (N + 1) 0 r h
  refine ⟨k, ?_, h2, fun i h1 h4 => ?_, fun i => (clock_acc hr hdt.le i).1⟩
  · unfold predictR
    have : predictLoopR ar env d Q tau ((some dt).getD (ar.fl (2 * tau))) (N + 1) 0 s = _ := h
    rw [this]
  · obtain ⟨a, rfl⟩ : ∃ a, i = a + 1 := ⟨i - 1, by omega⟩
    exact h3 a (Nat.zero_le _) (by omega)

/-- **C99.** With the default argument `predict` is one step, as long as a rounding loses at most a quarter. -/
theorem ekf_rounded_predict_default (hr : Rounds ar u) (hu : 4 * u ≤ 1) (env : Env G F n) (d : Dyn G F n) (Q : Mat n n F) {tau : F}
    (htau : 0 ≤ tau) (s : State G F n) (fuel : ℕ) :
    predictR ar env d Q tau none (fuel + 1) s = some (odeStepR ar env d Q s 0 (ar.fl (tau - 0))) := by
  have h : ∀ a, 0 ≤ a → 3 * a ≤ 4 * ar.fl a := by
    intro a ha
    have h := hr.fl_err a
    rw [abs_of_nonneg ha] at h
    have h2 := (abs_le.1 h).1
    nlinarith
  have h1 := h (2 * tau) (by linarith)
  have h2 := h (ar.fl (2 * tau)) (by linarith)
  unfold predictR predictLoopR
  rw [if_neg]
  simp only [Option.getD_none, zero_add, not_lt]
  linarith

/-- **C99** (partial).  FULL CLAIM: in rounded arithmetic `update` keeps the covariance positive semidefinite; false, see
`ekf_rounded_update_breaks_psd`.  Proved: the negative part is of the size of the errors. If the computed gain is within
`kappa` of the exact one, then the covariance is positive semidefinite, and not larger than before, up to `delta (|w₁| + … + |wₙ|)²`, where
`delta` bounds `covError`, which is `kappa |H P|` plus `n + m + 1` roundings of `(1 + |K| |H|) |P|`. Missing: definiteness itself. -/
theorem ekf_rounded_update_psd_partial (hr : Rounds ar u) (env : Env G F n) (z : Meas G F n) (R : Mat z.m z.m F) (s : State G F n)
    (hP : PSD s.P) (hR : PD (symU R)) {kappa delta : F}
    (hK : ∀ i b, |gainR ar env s.P (z.jac s.g) R i b
      - (s.P * (z.jac s.g)ᵀ * (z.jac s.g * s.P * (z.jac s.g)ᵀ + symU R)⁻¹) i b| ≤ kappa)
    (hd : ∀ i j, covError u kappa s.P (z.jac s.g) (gainR ar env s.P (z.jac s.g) R) i j ≤ delta) (w : Vec n F) :
    -(delta * (∑ i, |w i|) ^ 2) ≤ w ⬝ᵥ (updateR ar env z R s).P *ᵥ w ∧
    w ⬝ᵥ (updateR ar env z R s).P *ᵥ w ≤ w ⬝ᵥ s.P *ᵥ w + delta * (∑ i, |w i|) ^ 2 := by
  set H := z.jac s.g
  set K := s.P * Hᵀ * (H * s.P * Hᵀ + symU R)⁻¹ with hKd
  have h1 := update_cov_PSD s.P H (symU R) hP hR
  have h2 := update_cov_decrease s.P H (symU R) hP hR
  change PSD ((1 - K * H) * s.P) at h1
  change PSD (s.P - (1 - K * H) * s.P) at h2
  have h3 : ∀ i j, |(updateR ar env z R s).P i j - ((1 - K * H : Mat n n F) * s.P : Mat n n F) i j| ≤ delta := by
    intro i j
    have e : ((1 - K * H : Mat n n F) * s.P : Mat n n F) i j = symU ((1 - K * H : Mat n n F) * s.P) i j := by rw [symU_of_isSymm _ h1.1]
    rw [e]
    change |symU _ i j - _| ≤ _
    unfold symU
    by_cases hij : i ≤ j
    · rw [if_pos hij, if_pos hij]
      exact (post_near hr s.P H K _ hK i j).trans (hd i j)
    · rw [if_neg hij, if_neg hij]
      exact (post_near hr s.P H K _ hK j i).trans (hd j i)
  have h4 := abs_le.1 (quad_near h3 w)
  have h5 := h1.2 w
  have h6 := h2.2 w
  rw [Matrix.sub_mulVec, dotProduct_sub] at h6
  constructor <;> linarith [h4.1, h4.2]

end

/-! ### Binary floating point numbers -/

/-- **C99.** In binary floating point numbers with `p + 1` bits `predict` never returns when the step is a power of two and the time
to be propagated exceeds `2^(p+1)` steps: the clock stops there. -/
theorem ekf_rounded_predict_hangs {G : Type*} {n : ℕ} (p : ℕ) (hp : 1 ≤ p) (env : Env G ℚ n) (d : Dyn G ℚ n) (Q : Mat n n ℚ) (e : ℤ) (tau : ℚ)
    (htau : 2 ^ (p + 1) * 2 ^ e < tau) (fuel : ℕ) (s : State G ℚ n) : predictR (floatArith p) env d Q tau (some (2 ^ e)) fuel s = none := by
  have h2 : (0 : ℚ) < 2 ^ e := zpow_pos (by norm_num) _
  have h : ∀ fuel (k : ℕ) s, k ≤ 2 ^ (p + 1) → predictLoopR (floatArith p) env d Q tau (2 ^ e) fuel (k * 2 ^ e) s = none := by
    intro fuel
    induction fuel with
    | zero => intros; rfl
    | succ f ih =>
      intro k s hk
      unfold predictLoopR
      rcases hk.lt_or_eq with hlt | heq
      · have e1 : (floatArith p).fl ((k : ℚ) * 2 ^ e + 2 ^ e) = ((k + 1 : ℕ) : ℚ) * 2 ^ e := by
          have := flBits_short p (k + 1) hlt e
          rw [show (k : ℚ) * 2 ^ e + 2 ^ e = ((k + 1 : ℕ) : ℚ) * 2 ^ e by push_cast; ring]
          exact this
        rw [e1, if_pos, ih _ _ hlt]
        refine lt_of_le_of_lt (mul_le_mul_of_nonneg_right ?_ h2.le) htau
        exact_mod_cast hlt
      · have e1 : (floatArith p).fl ((k : ℚ) * 2 ^ e + 2 ^ e) = (k : ℚ) * 2 ^ e := by
          rw [heq]; push_cast; exact flBits_tie p hp e
        rw [e1, if_pos, ih _ _ hk]
        rw [heq]; push_cast; exact htau
  unfold predictR
  have := h fuel 0 s (Nat.zero_le _)
  simp only [Nat.cast_zero, zero_mul] at this
  simp only [Option.getD_some, this]

/-- Single precision, steps of a millisecond (1/1024 s): five hours cannot be propagated. -/
example {G : Type*} {n : ℕ} (env : Env G ℚ n) (d : Dyn G ℚ n) (Q : Mat n n ℚ) (fuel : ℕ) (s : State G ℚ n) :
    predictR (floatArith 23) env d Q 18000 (some (1 / 1024)) fuel s = none := by
  have := ekf_rounded_predict_hangs 23 (by norm_num) env d Q (-10) 18000 (by norm_num) fuel s
  rwa [show (2 : ℚ) ^ (-10 : ℤ) = 1 / 1024 by norm_num] at this

/-- Double precision resolves the same five hours, with at most `2 * 18000 * 1024` passes. -/
example {G : Type*} {n : ℕ} (env : Env G ℚ n) (d : Dyn G ℚ n) (Q : Mat n n ℚ) (s : State G ℚ n) :
    ∃ s', predictR (floatArith 52) env d Q 18000 (some (1 / 1024)) (36864000 + 1) s = some s' := by
  obtain ⟨k, h, _⟩ := ekf_rounded_predict_returns_partial (floatArith_rounds 52) env d Q (tau := 18000) (dt := 1 / 1024)
    (by norm_num) (by norm_num) (by norm_num) s 36864000 (by norm_num)
  exact ⟨_, h⟩

/-- A filter of two states; the external solver divides with rounding, which is what `ldlt().solve` does for a matrix of size one. -/
def fEnv : Env Unit ℚ 2 where
  tab := .euler
  rplus _ _ := ()
  ad _ := 0
  default := ()
  solve S B := fun i j => flBits 52 (B i j / S i i)

/-- A measurement of the sum of the states. -/
def fMeas : Meas Unit ℚ 2 where
  m := 1
  Y := ℚ
  h _ := 0
  jac _ := !![1, 1]
  yminus a b := fun _ => a - b
  y := 0

/-- The covariance before the measurement. -/
def fPrior : Mat 2 2 ℚ := !![1, 0; 0, 4]

/-- A precise measurement. -/
def fNoise : Mat 1 1 ℚ := !![1 / 2 ^ 60]

theorem fPrior_psd : PSD fPrior := by
  refine ⟨by ext i j; fin_cases i <;> fin_cases j <;> rfl, fun w => ?_⟩
  simp [fPrior, Matrix.mulVec, dotProduct, Fin.sum_univ_two]
  nlinarith [mul_self_nonneg (w 0), mul_self_nonneg (w 1)]

/-- **C99.** In double precision one update with a precise measurement makes the covariance indefinite, although the prior is
positive semidefinite and the noise positive definite; the same measurement once more has a negative innovation covariance. -/
theorem ekf_rounded_update_breaks_psd : PSD fPrior ∧ PD (symU fNoise) ∧
    ∃ s', s' = updateR (floatArith 52) fEnv fMeas fNoise ⟨(), fPrior⟩ ∧ ![1, 1] ⬝ᵥ s'.P *ᵥ ![1, 1] < 0 ∧
      innovR (floatArith 52) (m := 1) s'.P (fMeas.jac ()) fNoise 0 0 < 0 := by
  refine ⟨fPrior_psd, ?_, _, rfl, ?_, ?_⟩
  · rw [symU_of_isSymm _ (by ext i j; fin_cases i; fin_cases j; rfl)]
    exact pd_one_by_one _ (by norm_num)
  · decide +kernel
  · decide +kernel

/-- The row of `fMeas`. -/
def fRow : Mat 1 2 ℚ := !![1, 1]

theorem fGain : fPrior * fRowᵀ * (fRow * fPrior * fRowᵀ + symU fNoise)⁻¹ = !![1 / (5 + 1 / 2 ^ 60); 4 / (5 + 1 / 2 ^ 60)] := by
  have h : fRow * fPrior * fRowᵀ + symU fNoise = !![5 + 1 / 2 ^ 60] := by
    ext i j; fin_cases i; fin_cases j; decide +kernel
  have h2 : (!![5 + 1 / 2 ^ 60] : Mat 1 1 ℚ)⁻¹ = !![1 / (5 + 1 / 2 ^ 60)] := by
    refine Matrix.inv_eq_left_inv ?_
    ext i j; fin_cases i; fin_cases j; decide +kernel
  rw [h, h2]
  ext i j; fin_cases i <;> fin_cases j <;> decide +kernel

theorem fGain_near (i : Fin 2) (b : Fin 1) : |gainR (floatArith 52) fEnv fPrior fRow fNoise i b
    - (fPrior * fRowᵀ * (fRow * fPrior * fRowᵀ + symU fNoise)⁻¹) i b| ≤ 1 / 2 ^ 52 := by
  rw [fGain]
  fin_cases i <;> fin_cases b <;> decide +kernel

theorem fCov_near (i j : Fin 2) : covError (1 / 2 ^ 53) (1 / 2 ^ 52) fPrior fRow (gainR (floatArith 52) fEnv fPrior fRow fNoise) i j ≤ 1 / 2 ^ 44 := by
  fin_cases i <;> fin_cases j <;> decide +kernel

/-- The same update: the negative part is below `2^-44`. -/
example (w : Vec 2 ℚ) : -(1 / 2 ^ 44 * (∑ i, |w i|) ^ 2) ≤ w ⬝ᵥ (updateR (floatArith 52) fEnv fMeas fNoise ⟨(), fPrior⟩).P *ᵥ w := by
  exact (ekf_rounded_update_psd_partial (floatArith_rounds 52) fEnv fMeas fNoise ⟨(), fPrior⟩ fPrior_psd
    ekf_rounded_update_breaks_psd.2.1 (kappa := 1 / 2 ^ 52) fGain_near fCov_near w).1

end Verif.EKF
