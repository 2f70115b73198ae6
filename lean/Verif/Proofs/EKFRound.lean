import Verif.Model.EKFRound
import Verif.Spec.EKFRound
import Verif.Proofs.EKF
import Verif.Proofs.QPFloat

/-! # Helper lemmas for the Kalman filter in rounded arithmetic -/

namespace Verif.EKF

open Matrix EKFSpec Lin Verif.QP Verif.QPSpec

universe v

variable {G : Type*} {F : Type v} {n : ℕ} [Field F] [LinearOrder F] [IsStrictOrderedRing F]

/-! ### Without rounding -/

theorem mulR_exact {k l r : ℕ} (A : Mat k l F) (B : Mat l r F) : mulR Arith.exact A B = A * B := by
  ext i j
  simp [mulR, Arith.exact, Matrix.mul_apply, mulVec, dotProduct]

theorem covRhsR_exact (env : Env G F n) (d : Dyn G F n) (Q : Mat n n F) (g : G) (t : F) (P : Mat n n F) :
    covRhsR Arith.exact env d Q g t P = covRhs env d Q g t P := by
  unfold covRhsR covRhs
  simp only [mulR_exact]
  rfl

theorem addTerms_exact : ∀ (ws ks : List F) (x : F), addTerms Arith.exact x ws ks = x + addTerms Arith.exact 0 ws ks := by
  intro ws
  induction ws with
  | nil => intro ks x; simp [addTerms]
  | cons w ws ih =>
    intro ks x
    cases ks with
    | nil => simp [addTerms]
    | cons k ks =>
      rw [addTerms, addTerms, ih, ih ks (Arith.exact.fl _)]
      simp [Arith.exact, add_assoc]

theorem sumTerms_exact (ws ks : List F) : sumTerms Arith.exact ws ks = addTerms Arith.exact 0 ws ks := by
  cases ws with
  | nil => simp [sumTerms, addTerms]
  | cons w ws =>
    cases ks with
    | nil => simp [sumTerms, addTerms]
    | cons k ks => simp [sumTerms, addTerms, Arith.exact]

theorem combine_apply {ι : Type*} (dt : F) (i : ι) : ∀ (ws : List F) (ks : List (ι → F)),
    combine dt ws ks i = addTerms Arith.exact 0 (weightsR Arith.exact dt ws) (ks.map fun k => k i) := by
  intro ws
  induction ws with
  | nil => intro ks; simp [combine, weightsR, addTerms]
  | cons w ws ih =>
    intro ks
    cases ks with
    | nil => simp [combine, addTerms]
    | cons k ks =>
      rw [combine, List.map_cons, weightsR, List.map_cons, addTerms, addTerms_exact, Pi.add_apply, ih]
      simp [Arith.exact, weightsR]

theorem combine_apply₂ (dt : F) (i j : Fin n) : ∀ (ws : List F) (ks : List (Mat n n F)),
    combine dt ws ks i j = addTerms Arith.exact 0 (weightsR Arith.exact dt ws) (ks.map fun k => k i j) := by
  intro ws
  induction ws with
  | nil => intro ks; simp [combine, weightsR, addTerms]
  | cons w ws ih =>
    intro ks
    cases ks with
    | nil => simp [combine, addTerms]
    | cons k ks =>
      rw [combine, List.map_cons, weightsR, List.map_cons, addTerms, addTerms_exact, Matrix.add_apply, ih]
      simp [Arith.exact, weightsR]

theorem covAdd_exact (dt : F) (P : Mat n n F) (ws : List F) (ks : List (Mat n n F)) :
    covAdd Arith.exact dt P ws ks = P + combine dt ws ks := by
  ext i j
  rw [covAdd, addTerms_exact, Matrix.add_apply, combine_apply₂]

theorem stateAdd_exact (env : Env G F n) (dt : F) (g : G) (ws : List F) (ks : List (Vec n F)) :
    stateAdd Arith.exact env dt g ws ks = env.rplus g (combine dt ws ks) := by
  unfold stateAdd
  congr 1
  ext i
  rw [sumTerms_exact, combine_apply]

theorem slopesR_exact {S V : Type*} [AddCommMonoid V] [Module F V] (rhs : F → S → V) (add : S → V → S) (x : S) (t dt : F)
    (addR : List F → List V → S) (h : ∀ ws ks, addR ws ks = add x (combine dt ws ks)) : ∀ (l : List (F × List F)) (ks : List V),
    slopesR Arith.exact rhs addR t dt l ks = slopes rhs add x t dt l ks := by
  intro l
  induction l with
  | nil => intro ks; rfl
  | cons a l ih =>
    intro ks
    obtain ⟨c, a⟩ := a
    rw [slopesR, slopes, ih, h]
    rfl

theorem odeStepR_exact (env : Env G F n) (d : Dyn G F n) (Q : Mat n n F) (s : State G F n) (t dt : F) :
    odeStepR Arith.exact env d Q s t dt = odeStep env d Q s t dt := by
  unfold odeStepR odeStep doStepR doStep
  congr 1
  · rw [slopesR_exact d.f env.rplus s.g t dt _ (fun ws ks => stateAdd_exact env dt s.g ws ks), stateAdd_exact]
  · rw [slopesR_exact _ (· + ·) s.P t dt _ (fun ws ks => covAdd_exact dt s.P ws ks), covAdd_exact,
      show covRhsR Arith.exact env d Q s.g = covRhs env d Q s.g from funext fun t => funext fun P => covRhsR_exact env d Q s.g t P]

theorem predictLoopR_exact (env : Env G F n) (d : Dyn G F n) (Q : Mat n n F) (tau dtv : F) (fuel : ℕ) : ∀ (t : F) (s : State G F n),
    predictLoopR Arith.exact env d Q tau dtv fuel t s = predictLoop env d Q tau dtv fuel t s := by
  induction fuel with
  | zero => intros; rfl
  | succ f ih =>
    intro t s
    unfold predictLoopR predictLoop
    rw [ih, odeStepR_exact]
    rfl

theorem updateR_exact (env : Env G F n) (z : Meas G F n) (R : Mat z.m z.m F) (s : State G F n) :
    updateR Arith.exact env z R s = update env z R s := by
  unfold updateR update postR gainR innovR
  simp only [mulR_exact]
  rfl

/-! ### Symmetry -/

theorem covAdd_isSymm (ar : Arith F) (dt : F) {P : Mat n n F} (hP : P.IsSymm) (ws : List F) (ks : List (Mat n n F)) (h : ∀ k ∈ ks, k.IsSymm) :
    (covAdd ar dt P ws ks).IsSymm := by
  ext i j
  simp only [Matrix.transpose_apply, covAdd]
  rw [hP.apply i j]
  congr 1
  exact List.map_congr_left fun k hk => (h k hk).apply i j

theorem slopesR_mem (ar : Arith F) {S V : Type*} (rhs : F → S → V) (add : List F → List V → S) (t dt : F) (p : V → Prop) (hr : ∀ t x, p (rhs t x)) :
    ∀ (l : List (F × List F)) (ks : List V), (∀ k ∈ ks, p k) → ∀ k ∈ slopesR ar rhs add t dt l ks, p k := by
  intro l
  induction l with
  | nil => intro ks h; exact h
  | cons a l ih =>
    intro ks h
    obtain ⟨c, a⟩ := a
    rw [slopesR]
    refine ih _ fun k hk => ?_
    rcases List.mem_append.1 hk with hk | hk
    · exact h k hk
    · rw [List.mem_singleton.1 hk]; exact hr _ _

theorem odeStepR_isSymm (ar : Arith F) (env : Env G F n) (d : Dyn G F n) (Q : Mat n n F) (s : State G F n) (t dt : F) (h : s.P.IsSymm) :
    (odeStepR ar env d Q s t dt).P.IsSymm := by
  refine covAdd_isSymm ar dt h _ _ (slopesR_mem ar _ _ _ _ _ (fun t P => symU_isSymm _) _ _ fun k hk => ?_)
  rw [List.mem_singleton.1 hk]
  exact symU_isSymm _

theorem predictLoopR_isSymm (ar : Arith F) (env : Env G F n) (d : Dyn G F n) (Q : Mat n n F) (tau dtv : F) (fuel : ℕ) :
    ∀ (t : F) (s : State G F n) r, s.P.IsSymm → predictLoopR ar env d Q tau dtv fuel t s = some r → r.2.P.IsSymm := by
  induction fuel with
  | zero => intro t s r _ h; simp [predictLoopR] at h
  | succ f ih =>
    intro t s r hs h
    unfold predictLoopR at h
    by_cases hc : ar.fl (t + dtv) < tau
    · rw [if_pos hc] at h
      exact ih _ _ _ (odeStepR_isSymm ar env d Q s t dtv hs) h
    · rw [if_neg hc] at h
      cases h; exact hs

/-! ### The loop -/

variable {ar : Arith F} {u : F}

theorem clock_nonneg (hr : Rounds ar u) {dt : F} (hdt : 0 ≤ dt) : ∀ k, 0 ≤ clock ar.fl dt k
  | 0 => le_rfl
  | k + 1 => hr.fl_nonneg (add_nonneg (clock_nonneg hr hdt k) hdt)

theorem clock_acc (hr : Rounds ar u) {dt : F} (hdt : 0 ≤ dt) (k : ℕ) : Acc u k (clock ar.fl dt k) (k * dt) (k * dt) := by
  induction k with
  | zero => simp [clock, QP.Acc]
  | succ k ih =>
    have h1 : Acc u k dt dt dt := ⟨by simpa using mul_nonneg (amp_nonneg hr.nonneg k) hdt, (abs_of_nonneg hdt).le⟩
    have h2 := (ih.add h1).fl hr
    rw [show (k : F) * dt + dt = ((k + 1 : ℕ) : F) * dt by push_cast; ring] at h2
    exact h2

theorem clock_step (hr : Rounds ar u) {dt tau : F} (hdt : 0 < dt) (hres : 2 * u * (tau + dt) ≤ dt) {k : ℕ}
    (h : clock ar.fl dt k ≤ tau) : clock ar.fl dt k + dt / 2 ≤ clock ar.fl dt (k + 1) := by
  have h0 := clock_nonneg hr hdt.le k
  have h1 := hr.fl_err (clock ar.fl dt k + dt)
  rw [abs_of_nonneg (by linarith : 0 ≤ clock ar.fl dt k + dt)] at h1
  have h2 := (abs_le.1 h1).1
  have h3 : u * (clock ar.fl dt k + dt) ≤ u * (tau + dt) := mul_le_mul_of_nonneg_left (by linarith) hr.nonneg
  change _ ≤ ar.fl (clock ar.fl dt k + dt)
  linarith

/-- The loop walks along the clock. -/
theorem predictLoopR_walk (env : Env G F n) (d : Dyn G F n) (Q : Mat n n F) (tau dt : F) (s : State G F n) (fuel : ℕ) : ∀ i r,
    predictLoopR ar env d Q tau dt fuel (clock ar.fl dt i) (states ar.fl (odeStepR ar env d Q) dt s i) = some r →
    ∃ k, i ≤ k ∧ r = (clock ar.fl dt k, states ar.fl (odeStepR ar env d Q) dt s k) ∧ tau ≤ clock ar.fl dt (k + 1) ∧
      ∀ a, i ≤ a → a < k → clock ar.fl dt (a + 1) < tau := by
  induction fuel with
  | zero => intro i r h; simp [predictLoopR] at h
  | succ f ih =>
    intro i r h
    unfold predictLoopR at h
    by_cases hc : ar.fl (clock ar.fl dt i + dt) < tau
    · rw [if_pos hc] at h
      obtain ⟨k, hk, h1, h2, h3⟩ := ih (i + 1) r h
      refine ⟨k, by omega, h1, h2, fun a ha hak => ?_⟩
      rcases Nat.lt_or_eq_of_le ha with hlt | rfl
      · exact h3 a hlt hak
      · exact hc
    · rw [if_neg hc] at h
      cases h
      exact ⟨i, le_rfl, rfl, not_lt.1 hc, fun a h1 h2 => absurd h1 (by omega)⟩

theorem predictLoopR_returns (hr : Rounds ar u) (env : Env G F n) (d : Dyn G F n) (Q : Mat n n F) {tau dt : F} (hdt : 0 < dt) (htau : 0 ≤ tau)
    (hres : 2 * u * (tau + dt) ≤ dt) (s : State G F n) (N : ℕ) : ∀ i, clock ar.fl dt i ≤ tau → tau - clock ar.fl dt i ≤ N * (dt / 2) →
    ∃ r, predictLoopR ar env d Q tau dt (N + 1) (clock ar.fl dt i) (states ar.fl (odeStepR ar env d Q) dt s i) = some r := by
  induction N with
  | zero =>
    intro i hi h
    have := clock_step hr hdt hres hi
    unfold predictLoopR
    rw [if_neg]
    · exact ⟨_, rfl⟩
    · change ¬clock ar.fl dt (i + 1) < tau
      simp at h
      linarith
  | succ N ih =>
    intro i hi h
    have := clock_step hr hdt hres hi
    unfold predictLoopR
    by_cases hc : ar.fl (clock ar.fl dt i + dt) < tau
    · rw [if_pos hc]
      refine ih (i + 1) hc.le ?_
      push_cast at h
      linarith
    · rw [if_neg hc]; exact ⟨_, rfl⟩

/-! ### The covariance after an update -/

theorem mulR_acc (hr : Rounds ar u) {k l r : ℕ} (A : Mat k l F) (B : Mat l r F) (i : Fin k) (j : Fin r) :
    Acc u l (mulR ar A B i j) ((A * B) i j) (∑ a, |A i a| * |B a j|) := hr.mv_acc A (fun a => B a j) i

theorem post_acc (hr : Rounds ar u) {m : ℕ} (P : Mat n n F) (H : Mat m n F) (K : Mat n m F) (i j : Fin n) :
    Acc u (n + m + 1) (mulR ar (fun i j => ar.fl ((1 : Mat n n F) i j - mulR ar K H i j)) P i j) (((1 - K * H : Mat n n F) * P : Mat n n F) i j)
      (∑ a, ((if i = a then 1 else 0) + ∑ b, |K i b| * |H b a|) * |P a j|) := by
  set T : Fin n → F := fun a => (if i = a then 1 else 0) + ∑ b, |K i b| * |H b a| with hT
  set M : Mat n n F := fun i j => ar.fl ((1 : Mat n n F) i j - mulR ar K H i j) with hM
  have hu := hr.nonneg
  have h1 : ∀ a, Acc u (m + 1) (M i a) ((1 - K * H : Mat n n F) i a) (T a) := by
    intro a
    have e : Acc u m ((1 : Mat n n F) i a) ((1 : Mat n n F) i a) (if i = a then 1 else 0) := by
      rw [Matrix.one_apply]
      have : (0 : F) ≤ if i = a then 1 else 0 := by split_ifs <;> norm_num
      exact ⟨by simpa using mul_nonneg (amp_nonneg hu m) this, (abs_of_nonneg this).le⟩
    exact (e.sub (mulR_acc hr K H i a)).fl hr
  have h2 := mulR_acc hr M P i j
  have h3 : ∀ a, Acc u (m + 1) (M i a * P a j) ((1 - K * H : Mat n n F) i a * P a j) (T a * |P a j|) := fun a => by
    have := (h1 a).mul hu (Acc.exact u (P a j))
    rwa [Nat.add_zero] at this
  have h4 : Acc u (m + 1) ((M * P) i j) (((1 - K * H : Mat n n F) * P : Mat n n F) i j) (∑ a, T a * |P a j|) := by
    rw [Matrix.mul_apply, Matrix.mul_apply]
    refine ⟨?_, (Finset.abs_sum_le_sum_abs _ _).trans (Finset.sum_le_sum fun a _ => (h3 a).2)⟩
    rw [← Finset.sum_sub_distrib, Finset.mul_sum]
    exact (Finset.abs_sum_le_sum_abs _ _).trans (Finset.sum_le_sum fun a _ => (h3 a).1)
  refine ⟨?_, h4.2⟩
  have h5 : ∑ a, |M i a| * |P a j| ≤ (1 + u) ^ (m + 1) * ∑ a, T a * |P a j| := by
    rw [Finset.mul_sum]
    refine Finset.sum_le_sum fun a _ => ?_
    rw [← mul_assoc]
    exact mul_le_mul_of_nonneg_right ((h1 a).le hu) (abs_nonneg _)
  have h6 := mul_le_mul_of_nonneg_left h5 (amp_nonneg hu n)
  have h7 := h2.1
  have h8 := h4.1
  have h9 : |mulR ar M P i j - ((1 - K * H : Mat n n F) * P : Mat n n F) i j| ≤ |mulR ar M P i j - (M * P) i j| + |(M * P) i j - ((1 - K * H : Mat n n F) * P : Mat n n F) i j| := by
    simpa using abs_add_le (mulR ar M P i j - (M * P) i j) ((M * P) i j - ((1 - K * H : Mat n n F) * P : Mat n n F) i j)
  have h10 : amp u (n + m + 1) = amp u n * (1 + u) ^ (m + 1) + amp u (m + 1) := by
    simp only [amp, pow_add]; ring
  rw [h10, add_mul, mul_assoc]
  linarith

theorem post_near (hr : Rounds ar u) {m : ℕ} (P : Mat n n F) (H : Mat m n F) (K K' : Mat n m F) {kappa : F}
    (hK : ∀ i b, |K' i b - K i b| ≤ kappa) (i j : Fin n) :
    |mulR ar (fun i j => ar.fl ((1 : Mat n n F) i j - mulR ar K' H i j)) P i j - ((1 - K * H : Mat n n F) * P : Mat n n F) i j| ≤ covError u kappa P H K' i j := by
  have h1 := (post_acc hr P H K' i j).1
  have h2 : |((1 - K' * H : Mat n n F) * P : Mat n n F) i j - ((1 - K * H : Mat n n F) * P : Mat n n F) i j| ≤ kappa * ∑ b, |(H * P) b j| := by
    have : ((1 - K' * H) * P) - ((1 - K * H) * P) = -((K' - K) * (H * P)) := by
      simp only [Matrix.sub_mul, Matrix.mul_assoc]; abel
    rw [← Matrix.sub_apply, this, Matrix.neg_apply, abs_neg, Matrix.mul_apply, Finset.mul_sum]
    refine (Finset.abs_sum_le_sum_abs _ _).trans (Finset.sum_le_sum fun b _ => ?_)
    rw [abs_mul]
    exact mul_le_mul_of_nonneg_right (hK i b) (abs_nonneg _)
  have h3 := abs_add_le (mulR ar (fun i j => ar.fl ((1 : Mat n n F) i j - mulR ar K' H i j)) P i j - ((1 - K' * H : Mat n n F) * P : Mat n n F) i j)
    (((1 - K' * H : Mat n n F) * P : Mat n n F) i j - ((1 - K * H : Mat n n F) * P : Mat n n F) i j)
  rw [sub_add_sub_cancel] at h3
  unfold covError
  linarith

/-- Quadratic forms of matrices whose entries differ by at most `delta`. -/
theorem quad_near {A B : Mat n n F} {delta : F} (h : ∀ i j, |A i j - B i j| ≤ delta) (w : Vec n F) :
    |w ⬝ᵥ A *ᵥ w - w ⬝ᵥ B *ᵥ w| ≤ delta * (∑ i, |w i|) ^ 2 := by
  have e : w ⬝ᵥ A *ᵥ w - w ⬝ᵥ B *ᵥ w = ∑ i, ∑ j, w i * (A i j - B i j) * w j := by
    simp only [dotProduct, mulVec, Finset.mul_sum, ← Finset.sum_sub_distrib]
    exact Finset.sum_congr rfl fun i _ => Finset.sum_congr rfl fun j _ => by ring
  rw [e]
  have e2 : delta * (∑ i, |w i|) ^ 2 = ∑ i, ∑ j, |w i| * delta * |w j| := by
    rw [pow_two, Finset.sum_mul_sum, Finset.mul_sum]
    refine Finset.sum_congr rfl fun i _ => ?_
    rw [Finset.mul_sum]
    exact Finset.sum_congr rfl fun j _ => by ring
  rw [e2]
  refine (Finset.abs_sum_le_sum_abs _ _).trans (Finset.sum_le_sum fun i _ => (Finset.abs_sum_le_sum_abs _ _).trans (Finset.sum_le_sum fun j _ => ?_))
  rw [abs_mul, abs_mul]
  exact mul_le_mul_of_nonneg_right (mul_le_mul_of_nonneg_left (h i j) (abs_nonneg _)) (abs_nonneg _)

/-! ### Binary floating point numbers -/

/-- Multiples of a power of two with a short mantissa are representable. -/
theorem flBits_short (p : ℕ) (k : ℕ) (hk : k ≤ 2 ^ (p + 1)) (e : ℤ) : flBits p (k * 2 ^ e) = k * 2 ^ e := by
  rcases Nat.eq_zero_or_pos k with rfl | h0
  · simp [flBits]
  have h2 : (0 : ℚ) < 2 ^ e := zpow_pos (by norm_num) _
  have hx : (0 : ℚ) < k * 2 ^ e := mul_pos (by exact_mod_cast h0) h2
  have hne : (k * 2 ^ e : ℚ) ≠ 0 := hx.ne'
  set x : ℚ := k * 2 ^ e with hxd
  have hb := log_bounds hne
  rw [abs_of_pos hx] at hb
  -- it is enough that the quotient by the unit is an integer
  have key : (∃ z : ℤ, x = z * ulp p x) → flBits p x = x := by
    rintro ⟨z, hz⟩
    unfold flBits
    rw [if_neg hne]
    have hu := ulp_pos p x
    rw [show x / ulp p x = (z : ℚ) by rw [div_eq_iff hu.ne']; exact hz, nearest_int]
    exact hz.symm
  apply key
  unfold ulp
  rw [abs_of_pos hx]
  have hle : Int.log 2 x ≤ p + 1 + e := by
    have : x ≤ 2 ^ ((p : ℤ) + 1 + e) := by
      rw [zpow_add₀ (by norm_num), hxd]
      refine mul_le_mul_of_nonneg_right ?_ h2.le
      exact_mod_cast hk
    have h3 : (2 : ℚ) ^ Int.log 2 x ≤ 2 ^ ((p : ℤ) + 1 + e) := hb.1.trans this
    exact (zpow_le_zpow_iff_right₀ (by norm_num)).1 h3
  rcases hle.lt_or_eq with hlt | heq
  · obtain ⟨c, hc⟩ : ∃ c : ℕ, e = (Int.log 2 x - p) + c := ⟨(e - (Int.log 2 x - p)).toNat, by omega⟩
    refine ⟨k * 2 ^ c, ?_⟩
    push_cast
    rw [mul_assoc, ← zpow_natCast (2 : ℚ) c, ← zpow_add₀ (by norm_num), show (c : ℤ) + (Int.log 2 x - p) = e by omega]
  · have h4 : x = 2 ^ ((p : ℤ) + 1 + e) := by
      refine le_antisymm ?_ (heq ▸ hb.1)
      rw [zpow_add₀ (by norm_num), hxd]
      refine mul_le_mul_of_nonneg_right ?_ h2.le
      exact_mod_cast hk
    refine ⟨2 ^ p, ?_⟩
    rw [heq]
    push_cast
    rw [← zpow_natCast, ← zpow_add₀ (by norm_num), show (p : ℤ) + (p + 1 + e - p) = p + 1 + e by omega]
    exact h4

/-- The first multiple that is not is a tie and goes down. -/
theorem flBits_tie (p : ℕ) (hp : 1 ≤ p) (e : ℤ) : flBits p ((2 ^ (p + 1) : ℚ) * 2 ^ e + 2 ^ e) = 2 ^ (p + 1) * 2 ^ e := by
  have h2 : (0 : ℚ) < 2 ^ e := zpow_pos (by norm_num) _
  set x : ℚ := (2 ^ (p + 1) : ℚ) * 2 ^ e + 2 ^ e with hxd
  have hx : 0 < x := by positivity
  have h1p : (1 : ℚ) < 2 ^ (p + 1) := one_lt_pow₀ (by norm_num) (by omega)
  have hlog : Int.log 2 x = p + 1 + e := by
    have e1 : (2 : ℚ) ^ ((p : ℤ) + 1 + e) = 2 ^ (p + 1) * 2 ^ e := by
      rw [zpow_add₀ (by norm_num)]; norm_cast
    have e2 : (2 : ℚ) ^ ((p : ℤ) + 1 + e + 1) = 2 * (2 ^ (p + 1) * 2 ^ e) := by
      rw [zpow_add_one₀ (by norm_num), e1]; ring
    have hb := log_bounds hx.ne'
    rw [abs_of_pos hx] at hb
    have a1 : (2 : ℚ) ^ Int.log 2 x < 2 ^ ((p : ℤ) + 1 + e + 1) := by
      refine hb.1.trans_lt ?_
      rw [e2, hxd]
      nlinarith
    have a2 : (2 : ℚ) ^ ((p : ℤ) + 1 + e) < 2 ^ (Int.log 2 x + 1) := by
      refine lt_of_le_of_lt ?_ hb.2
      rw [e1, hxd]; linarith
    have b1 := (zpow_lt_zpow_iff_right₀ (by norm_num : (1 : ℚ) < 2)).1 a1
    have b2 := (zpow_lt_zpow_iff_right₀ (by norm_num : (1 : ℚ) < 2)).1 a2
    omega
  have hulp : ulp p x = 2 * 2 ^ e := by
    unfold ulp
    rw [abs_of_pos hx, hlog, show (p : ℤ) + 1 + e - p = e + 1 by ring, zpow_add_one₀ (by norm_num)]
    ring
  have hdiv : x / ulp p x = ((2 ^ p : ℤ) : ℚ) + 1 / 2 := by
    rw [hulp, hxd, div_eq_iff (by positivity)]
    push_cast
    ring
  have hfl : ⌊((2 ^ p : ℤ) : ℚ) + 1 / 2⌋ = 2 ^ p := by
    rw [Int.floor_eq_iff]
    constructor <;> push_cast <;> linarith
  have hnear : nearest (((2 ^ p : ℤ) : ℚ) + 1 / 2) = 2 ^ p := by
    unfold nearest
    rw [hfl]
    have : ((2 ^ p : ℤ) : ℚ) + 1 / 2 - ((2 ^ p : ℤ) : ℚ) = 1 / 2 := by ring
    rw [this, if_neg (lt_irrefl _), if_neg (lt_irrefl _), if_pos]
    obtain ⟨q, rfl⟩ : ∃ q, p = q + 1 := ⟨p - 1, by omega⟩
    rw [pow_succ]; omega
  unfold flBits
  rw [if_neg hx.ne', hdiv, hnear, hulp]
  push_cast
  ring

end Verif.EKF
