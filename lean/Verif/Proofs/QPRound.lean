import Verif.Spec.QPRound
import Verif.Proofs.QPBasic
import Verif.Proofs.QPSolve
import Mathlib.Tactic.Ring
import Mathlib.Tactic.Linarith
import Mathlib.Tactic.Positivity
import Mathlib.Tactic.FieldSimp
import Mathlib.Algebra.Order.BigOperators.Group.Finset
import Mathlib.Algebra.Order.Ring.Abs

/-!
# A calculus for rounding errors
-/

namespace Verif.QP

open Matrix Verif.QPSpec

variable {F : Type*} [Field F] [LinearOrder F] [IsStrictOrderedRing F] {n m : ℕ}

/-- `x` is `t` after at most `k` roundings, relative to `T`. -/
def Acc (u : F) (k : ℕ) (x t T : F) : Prop := |x - t| ≤ amp u k * T ∧ |t| ≤ T

theorem amp_zero (u : F) : amp u 0 = 0 := by simp [amp]

theorem amp_nonneg {u : F} (hu : 0 ≤ u) (k : ℕ) : 0 ≤ amp u k := by
  have := one_le_pow₀ (n := k) (by linarith : 1 ≤ 1 + u)
  simp only [amp]; linarith

theorem amp_mono {u : F} (hu : 0 ≤ u) {k l : ℕ} (h : k ≤ l) : amp u k ≤ amp u l := by
  have := pow_le_pow_right₀ (by linarith : 1 ≤ 1 + u) h
  simp only [amp]; linarith

section acc

variable {u x t T x' t' T' : F} {k l : ℕ}

theorem Acc.nonneg (h : Acc u k x t T) : 0 ≤ T := (abs_nonneg _).trans h.2

theorem Acc.exact (u t : F) : Acc u 0 t t |t| := ⟨by simp [amp], le_rfl⟩

theorem Acc.mono (hu : 0 ≤ u) (h : Acc u k x t T) (hk : k ≤ l) : Acc u l x t T :=
  ⟨h.1.trans (mul_le_mul_of_nonneg_right (amp_mono hu hk) h.nonneg), h.2⟩

theorem Acc.weaken (hu : 0 ≤ u) (h : Acc u k x t T) (hT : T ≤ T') : Acc u k x t T' :=
  ⟨h.1.trans (mul_le_mul_of_nonneg_left hT (amp_nonneg hu k)), h.2.trans hT⟩

theorem Acc.le (hu : 0 ≤ u) (h : Acc u k x t T) : |x| ≤ (1 + u) ^ k * T := by
  have h1 := h.1
  have h2 := h.2
  have : |x| ≤ |x - t| + |t| := by simpa using abs_add_le (x - t) t
  simp only [amp] at h1
  linarith

theorem Acc.fl {ar : Arith F} (hr : Rounds ar u) (h : Acc u k x t T) : Acc u (k + 1) (ar.fl x) t T := by
  refine ⟨?_, h.2⟩
  have h1 := hr.fl_err x
  have h2 := mul_le_mul_of_nonneg_left (h.le hr.nonneg) hr.nonneg
  have h3 := h.1
  have : |ar.fl x - t| ≤ |ar.fl x - x| + |x - t| := by simpa using abs_add_le (ar.fl x - x) (x - t)
  simp only [amp, pow_succ] at *
  linarith

theorem Acc.add (h : Acc u k x t T) (h' : Acc u k x' t' T') : Acc u k (x + x') (t + t') (T + T') := by
  refine ⟨?_, (abs_add_le _ _).trans (add_le_add h.2 h'.2)⟩
  have : |x + x' - (t + t')| ≤ |x - t| + |x' - t'| := by
    rw [show x + x' - (t + t') = (x - t) + (x' - t') by ring]; exact abs_add_le _ _
  have h1 := h.1
  have h2 := h'.1
  linarith

theorem Acc.neg (h : Acc u k x t T) : Acc u k (-x) (-t) T := by
  refine ⟨?_, by rw [abs_neg]; exact h.2⟩
  rw [show -x - -t = -(x - t) by ring, abs_neg]; exact h.1

theorem Acc.sub (h : Acc u k x t T) (h' : Acc u k x' t' T') : Acc u k (x - x') (t - t') (T + T') := by
  rw [sub_eq_add_neg, sub_eq_add_neg]; exact h.add h'.neg

theorem Acc.mul (hu : 0 ≤ u) (h : Acc u k x t T) (h' : Acc u l x' t' T') : Acc u (k + l) (x * x') (t * t') (T * T') := by
  refine ⟨?_, by rw [abs_mul]; exact mul_le_mul h.2 h'.2 (abs_nonneg _) h.nonneg⟩
  have e1 : |x * x' - t * t'| ≤ |x - t| * |x'| + |t| * |x' - t'| := by
    rw [show x * x' - t * t' = (x - t) * x' + t * (x' - t') by ring, ← abs_mul, ← abs_mul]; exact abs_add_le _ _
  have e2 : |x - t| * |x'| ≤ (amp u k * T) * ((1 + u) ^ l * T') :=
    mul_le_mul h.1 (h'.le hu) (abs_nonneg _) (mul_nonneg (amp_nonneg hu k) h.nonneg)
  have e3 : |t| * |x' - t'| ≤ T * (amp u l * T') := mul_le_mul h.2 h'.1 (abs_nonneg _) h.nonneg
  refine e1.trans ((add_le_add e2 e3).trans (le_of_eq ?_))
  simp only [amp, pow_add]; ring

end acc

section bounds

variable {ar : Arith F} {u : F}

theorem _root_.Verif.QPSpec.Rounds.fl_nonneg (hr : Rounds ar u) {a : F} (h : 0 ≤ a) : 0 ≤ ar.fl a := by
  have := hr.fl_err a
  rw [abs_of_nonneg h] at this
  have h1 := (abs_le.1 this).1
  have := mul_le_mul_of_nonneg_right hr.small.le h
  linarith

theorem _root_.Verif.QPSpec.Rounds.fl_pos (hr : Rounds ar u) {a : F} (h : 0 < a) : 0 < ar.fl a := by
  have := hr.fl_err a
  rw [abs_of_pos h] at this
  have h1 := (abs_le.1 this).1
  have := mul_lt_mul_of_pos_right hr.small h
  linarith

theorem _root_.Verif.QPSpec.Rounds.fl_neg (hr : Rounds ar u) {a : F} (h : a < 0) : ar.fl a < 0 := by
  have := hr.fl_err a
  rw [abs_of_neg h] at this
  have h1 := (abs_le.1 this).2
  have := mul_lt_mul_of_pos_right hr.small (neg_pos.2 h)
  linarith

theorem _root_.Verif.QPSpec.Rounds.fl_le (hr : Rounds ar u) {a : F} (h : 0 ≤ a) : ar.fl a ≤ (1 + u) * a := by
  have := hr.fl_err a
  rw [abs_of_nonneg h] at this
  have h1 := (abs_le.1 this).2
  linarith

/-- The threshold of the optimality test. -/
theorem threshold_le (hr : Rounds ar u) {ea er M : F} (hea : 0 ≤ ea) (her : 0 ≤ er) (hM : 0 ≤ M) :
    ar.fl (ea + ar.fl (er * M)) ≤ (1 + u) ^ 2 * (ea + er * M) := by
  have h1 := hr.fl_le (mul_nonneg her hM)
  have h2 := hr.fl_le (add_nonneg hea (hr.fl_nonneg (mul_nonneg her hM)))
  have h3 : ea ≤ (1 + u) * ea := le_mul_of_one_le_left hea (by linarith [hr.nonneg])
  have h4 : (1 + u) * (ea + ar.fl (er * M)) ≤ (1 + u) * ((1 + u) * ea + (1 + u) * (er * M)) :=
    mul_le_mul_of_nonneg_left (by linarith) (by linarith [hr.nonneg])
  refine h2.trans (h4.trans (le_of_eq (by ring)))

theorem _root_.Verif.QPSpec.Rounds.mv_acc (hr : Rounds ar u) {k l : ℕ} (M : Matrix (Fin k) (Fin l) F) (x : Fin l → F) (i : Fin k) :
    Acc u l (ar.mv M x i) ((M *ᵥ x) i) (absMV M x i) := by
  refine ⟨hr.mv_err M x i, ?_⟩
  simp only [mulVec, dotProduct, absMV]
  refine (Finset.abs_sum_le_sum_abs _ _).trans (le_of_eq ?_)
  exact Finset.sum_congr rfl fun j _ => abs_mul _ _

end bounds

section test

variable {ar : Arith F} {u : F}

theorem norm_le_of_acc (hu : 0 ≤ u) {k N : ℕ} {v t T : Fin N → F} (h : ∀ i, Acc u k (v i) (t i) (T i)) :
    norm v ≤ norm t + amp u k * norm T := by
  refine norm_le (add_nonneg (norm_nonneg _) (mul_nonneg (amp_nonneg hu k) (norm_nonneg _))) fun i => ?_
  have h1 := (h i).1
  have h2 : |v i| ≤ |v i - t i| + |t i| := by simpa using abs_add_le (v i - t i) (t i)
  have h3 := le_norm t i
  have h4 := mul_le_mul_of_nonneg_left ((le_abs_self _).trans (le_norm T i)) (amp_nonneg hu k)
  linarith

/-- What the optimality test says about the exact residuals. -/
theorem optimalTestR_spec (hr : Rounds ar u) {prm : Params F} (hea : 0 ≤ prm.epsAbs) (her : 0 ≤ prm.epsRel) {p : Pbm F n m}
    {x : Fin n → F} {y z : Fin m → F} (h : optimalTestR ar prm p x y z = true) :
    (∃ rp, Tol prm.epsAbs prm.epsRel (p.A *ᵥ x) z z rp ∧ ∀ i, |(p.A *ᵥ x) i - z i| ≤
      (1 + u) ^ 2 * (rp + prm.epsRel * (amp u n * norm (absMV p.A x))) + amp u (n + 1) * (norm (absMV p.A x) + norm z)) ∧
    ∃ rd, Tol prm.epsAbs prm.epsRel (p.P *ᵥ x) p.q (p.Aᵀ *ᵥ y) rd ∧ ∀ j, |(p.P *ᵥ x) j + p.q j + (p.Aᵀ *ᵥ y) j| ≤
      (1 + u) ^ 2 * (rd + prm.epsRel * (amp u n * norm (absMV p.P x) + amp u m * norm (absMV p.Aᵀ y))) +
        amp u (n + m + 2) * (norm (absMV p.P x) + norm p.q + norm (absMV p.Aᵀ y)) := by
  have hu := hr.nonneg
  simp only [optimalTestR, Bool.and_eq_true, decide_eq_true_eq] at h
  obtain ⟨h1, h2⟩ := h
  refine ⟨⟨_, ⟨_, _, _, norm_isMaxNorm _, norm_isMaxNorm _, norm_isMaxNorm _, rfl⟩, fun i => ?_⟩,
    ⟨_, ⟨_, _, _, norm_isMaxNorm _, norm_isMaxNorm _, norm_isMaxNorm _, rfl⟩, fun j => ?_⟩⟩
  · rw [max_assoc, max_self]
    have hi := (le_norm _ i).trans h1
    have hM : 0 ≤ max (norm (ar.mv p.A x)) (norm z) := (norm_nonneg z).trans (le_max_right _ _)
    have ht := hi.trans (threshold_le hr hea her hM)
    have hn := norm_le_of_acc hu (hr.mv_acc p.A x)
    have hg : 0 ≤ amp u n * norm (absMV p.A x) := mul_nonneg (amp_nonneg hu n) (norm_nonneg _)
    have hM' : max (norm (ar.mv p.A x)) (norm z) ≤ max (norm (p.A *ᵥ x)) (norm z) + amp u n * norm (absMV p.A x) := by
      refine max_le (hn.trans ?_) ?_
      · have := le_max_left (norm (p.A *ᵥ x)) (norm z); linarith
      · have := le_max_right (norm (p.A *ᵥ x)) (norm z); linarith
    have ha := ((hr.mv_acc p.A x i).sub ((Acc.exact u (z i)).mono hu (Nat.zero_le n))).fl hr
    have e1 := ha.1
    have e2 : |(p.A *ᵥ x) i - z i| ≤ |ar.fl (ar.mv p.A x i - z i)| + |ar.fl (ar.mv p.A x i - z i) - ((p.A *ᵥ x) i - z i)| := by
      rw [abs_sub_comm (ar.fl _)]
      simpa using abs_add_le (ar.fl (ar.mv p.A x i - z i)) ((p.A *ᵥ x) i - z i - ar.fl (ar.mv p.A x i - z i))
    have e3 : amp u (n + 1) * (absMV p.A x i + |z i|) ≤ amp u (n + 1) * (norm (absMV p.A x) + norm z) :=
      mul_le_mul_of_nonneg_left (add_le_add ((le_abs_self _).trans (le_norm _ i)) (le_norm _ i)) (amp_nonneg hu _)
    have e4 : (1 + u) ^ 2 * (prm.epsAbs + prm.epsRel * max (norm (ar.mv p.A x)) (norm z)) ≤
        (1 + u) ^ 2 * (prm.epsAbs + prm.epsRel * max (norm (p.A *ᵥ x)) (norm z) + prm.epsRel * (amp u n * norm (absMV p.A x))) := by
      refine mul_le_mul_of_nonneg_left ?_ (by positivity)
      have := mul_le_mul_of_nonneg_left hM' her
      rw [mul_add] at this
      linarith
    linarith
  · have hj := (le_norm _ j).trans h2
    set N := max (max (norm (ar.mv p.P x)) (norm p.q)) (norm (ar.mv p.Aᵀ y)) with hN
    set N' := max (max (norm (p.P *ᵥ x)) (norm p.q)) (norm (p.Aᵀ *ᵥ y)) with hN'
    have hM : 0 ≤ N := (norm_nonneg _).trans (le_max_right _ _)
    have ht := hj.trans (threshold_le hr hea her hM)
    have hn := norm_le_of_acc hu (hr.mv_acc p.P x)
    have hn' := norm_le_of_acc hu (hr.mv_acc p.Aᵀ y)
    have hg : 0 ≤ amp u n * norm (absMV p.P x) := mul_nonneg (amp_nonneg hu n) (norm_nonneg _)
    have hg' : 0 ≤ amp u m * norm (absMV p.Aᵀ y) := mul_nonneg (amp_nonneg hu m) (norm_nonneg _)
    have hM' : N ≤ N' + (amp u n * norm (absMV p.P x) + amp u m * norm (absMV p.Aᵀ y)) := by
      have a1 : norm (p.P *ᵥ x) ≤ N' := (le_max_left _ _).trans (le_max_left _ _)
      have a2 : norm p.q ≤ N' := (le_max_right _ _).trans (le_max_left _ _)
      have a3 : norm (p.Aᵀ *ᵥ y) ≤ N' := le_max_right _ _
      refine max_le (max_le ?_ ?_) ?_ <;> linarith
    have ha := (((hr.mv_acc p.P x j).mono hu (by omega : n ≤ n + m + 1)).add
      (((((Acc.exact u (p.q j)).mono hu (Nat.zero_le m)).add (hr.mv_acc p.Aᵀ y j)).fl hr).mono hu
        (by omega : m + 1 ≤ n + m + 1))).fl hr
    have e1 := ha.1
    have e2 : |(p.P *ᵥ x) j + (p.q j + (p.Aᵀ *ᵥ y) j)| ≤ |ar.fl (ar.mv p.P x j + ar.fl (p.q j + ar.mv p.Aᵀ y j))| +
        |ar.fl (ar.mv p.P x j + ar.fl (p.q j + ar.mv p.Aᵀ y j)) - ((p.P *ᵥ x) j + (p.q j + (p.Aᵀ *ᵥ y) j))| := by
      rw [abs_sub_comm (ar.fl _)]
      simpa using abs_add_le (ar.fl (ar.mv p.P x j + ar.fl (p.q j + ar.mv p.Aᵀ y j)))
        ((p.P *ᵥ x) j + (p.q j + (p.Aᵀ *ᵥ y) j) - ar.fl (ar.mv p.P x j + ar.fl (p.q j + ar.mv p.Aᵀ y j)))
    have e3 : amp u (n + m + 2) * (absMV p.P x j + (|p.q j| + absMV p.Aᵀ y j)) ≤
        amp u (n + m + 2) * (norm (absMV p.P x) + norm p.q + norm (absMV p.Aᵀ y)) := by
      refine mul_le_mul_of_nonneg_left ?_ (amp_nonneg hu _)
      have b1 := (le_abs_self _).trans (le_norm (absMV p.P x) j)
      have b2 := le_norm p.q j
      have b3 := (le_abs_self _).trans (le_norm (absMV p.Aᵀ y) j)
      linarith
    have e4 : (1 + u) ^ 2 * (prm.epsAbs + prm.epsRel * N) ≤
        (1 + u) ^ 2 * (prm.epsAbs + prm.epsRel * N' +
          prm.epsRel * (amp u n * norm (absMV p.P x) + amp u m * norm (absMV p.Aᵀ y))) := by
      refine mul_le_mul_of_nonneg_left ?_ (by positivity)
      have := mul_le_mul_of_nonneg_left hM' her
      rw [mul_add] at this
      linarith
    rw [add_assoc]
    linarith

end test

section step

variable {ar : Arith F} {u : F}

theorem preZ_acc (hr : Rounds ar u) (alpha rho w y z : F) :
    Acc u 5 (preZ ar alpha rho w y z) (alpha * (rho⁻¹ * w) + alphaComp ar alpha * (rho⁻¹ * y) + z)
      (|alpha| * (|rho⁻¹| * |w|) + |alphaComp ar alpha| * (|rho⁻¹| * |y|) + |z|) := by
  have hu := hr.nonneg
  have hi := (Acc.exact u rho⁻¹).fl hr
  have h1 := ((Acc.exact u alpha).mul hu ((hi.mul hu (Acc.exact u w)).fl hr)).fl hr
  have h2 := ((Acc.exact u (alphaComp ar alpha)).mul hu ((hi.mul hu (Acc.exact u y)).fl hr)).fl hr
  exact (((h1.add h2).fl hr).add ((Acc.exact u z).mono hu (Nat.zero_le _))).fl hr

theorem nextY_acc (hr : Rounds ar u) (alpha rho w y z zn : F) :
    Acc u 4 (nextY ar alpha rho w y z zn) (alphaComp ar alpha * y + alpha * w + rho * z - rho * zn)
      (|alphaComp ar alpha| * |y| + |alpha| * |w| + |rho| * |z| + |rho| * |zn|) := by
  have hu := hr.nonneg
  have hm : ∀ a b : F, Acc u 1 (ar.fl (a * b)) (a * b) (|a| * |b|) := fun a b => ((Acc.exact u a).mul hu (Acc.exact u b)).fl hr
  exact (((((hm _ y).add (hm _ w)).fl hr).add ((hm _ z).mono hu (by norm_num))).fl hr |>.sub
    ((hm _ zn).mono hu (by norm_num))).fl hr

/-- The size of the rounding errors in a new multiplier. -/
def noise (u alpha ac rho w y z zn : F) : F :=
  2 * amp u 5 * (|ac| * |y| + |alpha| * |w| + rho * |z| + rho * |zn|)

theorem noise_nonneg (hu : 0 ≤ u) {alpha ac rho w y z zn : F} (h : 0 < rho) : 0 ≤ noise u alpha ac rho w y z zn := by
  have := amp_nonneg hu 5
  unfold noise
  positivity

/-- The new multiplier is `rho` times what the projection removed, up to rounding. -/
theorem nextY_near (hr : Rounds ar u) {alpha rho w y z zn : F} (h : 0 < rho) :
    |nextY ar alpha rho w y z zn - rho * (preZ ar alpha rho w y z - zn)| ≤
      noise u alpha (alphaComp ar alpha) rho w y z zn := by
  have hu := hr.nonneg
  have h1 := (preZ_acc hr alpha rho w y z).1
  have h2 := (nextY_acc hr alpha rho w y z zn).1
  rw [abs_of_pos h] at h2
  rw [abs_of_pos (inv_pos.2 h)] at h1
  set A := alphaComp ar alpha
  have e1 : |rho * (preZ ar alpha rho w y z) - (alpha * w + A * y + rho * z)| ≤
      amp u 5 * (|alpha| * |w| + |A| * |y| + rho * |z|) := by
    have := mul_le_mul_of_nonneg_left h1 h.le
    rw [← abs_of_pos h, ← abs_mul, abs_of_pos h] at this
    refine (le_of_eq ?_).trans (this.trans (le_of_eq ?_))
    · congr 1; field_simp
    · field_simp
  have e2 : amp u 4 ≤ amp u 5 := amp_mono hu (by norm_num)
  have e3 : amp u 4 * (|A| * |y| + |alpha| * |w| + rho * |z| + rho * |zn|) ≤
      amp u 5 * (|A| * |y| + |alpha| * |w| + rho * |z| + rho * |zn|) := mul_le_mul_of_nonneg_right e2 (by positivity)
  have e4 : amp u 5 * (|alpha| * |w| + |A| * |y| + rho * |z|) ≤
      amp u 5 * (|A| * |y| + |alpha| * |w| + rho * |z| + rho * |zn|) := by
    refine mul_le_mul_of_nonneg_left ?_ (amp_nonneg hu 5)
    have : 0 ≤ rho * |zn| := by positivity
    linarith
  have e5 : |nextY ar alpha rho w y z zn - rho * (preZ ar alpha rho w y z - zn)| ≤
      |nextY ar alpha rho w y z zn - (A * y + alpha * w + rho * z - rho * zn)| +
        |rho * (preZ ar alpha rho w y z) - (alpha * w + A * y + rho * z)| := by
    rw [show nextY ar alpha rho w y z zn - rho * (preZ ar alpha rho w y z - zn) =
      (nextY ar alpha rho w y z zn - (A * y + alpha * w + rho * z - rho * zn)) -
        (rho * (preZ ar alpha rho w y z) - (alpha * w + A * y + rho * z)) by ring]
    exact abs_sub _ _
  unfold noise
  linarith

/-- The row is not empty: its bounds are in order. -/
theorem rowOk_R (hr : Rounds ar u) {l b : Ext F} (h : emptyRowR ar l b = false) : RowOk l b := by
  unfold RowOk
  cases l <;> cases b <;> simp [emptyRowR, emptyRow] at h ⊢
  rename_i a b
  by_contra hc
  have := hr.fl_neg (a := b - a) (by linarith)
  linarith

/-- Projection on a row in rounded arithmetic. -/
theorem nextZ_row (hr : Rounds ar u) {l b : Ext F} (h : emptyRowR ar l b = false) {sy : F} (hs : 0 < sy) (v : F) :
    (∀ a, l = .fin a → ar.fl (sy * a) ≤ nextZ ar sy l b v) ∧ (∀ a, b = .fin a → nextZ ar sy l b v ≤ ar.fl (sy * a)) ∧
    (nextZ ar sy l b v < v → ∃ a, b = .fin a ∧ nextZ ar sy l b v = ar.fl (sy * a)) ∧
    (v < nextZ ar sy l b v → ∃ a, l = .fin a ∧ nextZ ar sy l b v = ar.fl (sy * a)) := by
  have hok := rowOk_R hr h
  cases l with
  | pos => simp [emptyRowR] at h
  | neg =>
    cases b with
    | neg => simp [emptyRowR] at h
    | pos => simp [nextZ, scaleR, maxE, minE]
    | fin b =>
      simp only [nextZ, scaleR, maxE, minE]
      refine ⟨by simp, fun a ha => ?_, fun hlt => ⟨b, rfl, ?_⟩, fun hlt => ?_⟩
      · cases ha; exact min_le_right _ _
      · exact min_eq_right (le_of_lt (by by_contra hc; rw [min_eq_left (not_lt.1 hc)] at hlt; exact lt_irrefl _ hlt))
      · exact absurd (min_le_left _ _) (not_le.2 hlt)
  | fin a =>
    cases b with
    | neg => simp [emptyRowR] at h
    | pos =>
      simp only [nextZ, scaleR, maxE, minE]
      refine ⟨fun a' ha => ?_, by simp, fun hlt => ?_, fun hlt => ⟨a, rfl, ?_⟩⟩
      · cases ha; exact le_max_right _ _
      · exact absurd (le_max_left _ _) (not_le.2 hlt)
      · exact max_eq_right (le_of_lt (by by_contra hc; rw [max_eq_left (not_lt.1 hc)] at hlt; exact lt_irrefl _ hlt))
    | fin b =>
      have hab : a ≤ b := by
        simp [RowOk, emptyRow] at hok; linarith
      have hfl : ar.fl (sy * a) ≤ ar.fl (sy * b) := hr.fl_mono (mul_le_mul_of_nonneg_left hab hs.le)
      simp only [nextZ, scaleR, maxE, minE]
      refine ⟨fun a' ha => ?_, fun b' hb => ?_, fun hlt => ⟨b, rfl, ?_⟩, fun hlt => ⟨a, rfl, ?_⟩⟩
      · cases ha; exact le_min (le_max_right _ _) hfl
      · cases hb; exact min_le_right _ _
      · refine min_eq_right ?_
        by_contra hc
        rw [min_eq_left (not_le.1 hc).le] at hlt
        exact absurd (le_max_left _ _) (not_le.2 hlt)
      · have h1 : v < max v (ar.fl (sy * a)) := hlt.trans_le (min_le_left _ _)
        have h2 : max v (ar.fl (sy * a)) = ar.fl (sy * a) :=
          max_eq_right (le_of_lt (by by_contra hc; rw [max_eq_left (not_lt.1 hc)] at h1; exact lt_irrefl _ h1))
        rw [h2, min_eq_left hfl]

/-- A bound that is scaled, and unscaled again. -/
theorem unscale_acc (hr : Rounds ar u) {sy : F} (hs : 0 < sy) (a : F) : Acc u 3 (ar.fl (ar.fl sy⁻¹ * ar.fl (sy * a))) a |a| := by
  have hu := hr.nonneg
  have h := (((Acc.exact u sy⁻¹).fl hr).mul hu (((Acc.exact u sy).mul hu (Acc.exact u a)).fl hr)).fl hr
  rw [abs_of_pos hs, abs_of_pos (inv_pos.2 hs), inv_mul_cancel_left₀ hs.ne', inv_mul_cancel_left₀ hs.ne'] at h
  exact h

/-- Rounded unscaling of the auxiliary variable preserves order. -/
theorem unZ_mono (hr : Rounds ar u) {sy : F} (hs : 0 < sy) {a b : F} (h : a ≤ b) :
    ar.fl (ar.fl sy⁻¹ * a) ≤ ar.fl (ar.fl sy⁻¹ * b) :=
  hr.fl_mono (mul_le_mul_of_nonneg_left h (hr.fl_nonneg (inv_nonneg.2 hs.le)))

/-- A small scaled multiplier is a small multiplier. -/
theorem unY_small (hr : Rounds ar u) {sy c y d : F} (hs : 0 < sy) (hc : 0 < c) (hd : 0 ≤ d) :
    (y ≤ d → ar.fl (ar.fl (sy * y) / c) ≤ (1 + u) ^ 2 * (sy * d / c)) ∧
    (-d ≤ y → -((1 + u) ^ 2 * (sy * d / c)) ≤ ar.fl (ar.fl (sy * y) / c)) := by
  have hu := hr.nonneg
  have hacc : ∀ t, |ar.fl (ar.fl (sy * t) / c)| ≤ (1 + u) ^ 2 * (sy * |t| / c) := by
    intro t
    have h := (((((Acc.exact u sy).mul hu (Acc.exact u t)).fl hr).mul hu (Acc.exact u c⁻¹)).fl hr).le hu
    rw [abs_of_pos hs, abs_of_pos (inv_pos.2 hc), ← div_eq_mul_inv, ← div_eq_mul_inv] at h
    exact h
  have hmono : ∀ a b, a ≤ b → ar.fl (ar.fl (sy * a) / c) ≤ ar.fl (ar.fl (sy * b) / c) := fun a b hab =>
    hr.fl_mono (div_le_div_of_nonneg_right (hr.fl_mono (mul_le_mul_of_nonneg_left hab hs.le)) hc.le)
  constructor
  · intro h
    have := (le_abs_self _).trans (hacc d)
    rw [abs_of_nonneg hd] at this
    exact (hmono _ _ h).trans this
  · intro h
    have := (abs_le.1 (hacc (-d))).1
    rw [abs_neg, abs_of_nonneg hd] at this
    exact this.trans (hmono _ _ h)

end step

section run

variable {ar : Arith F} {u : F}

theorem scaleAllR_pos (hr : Rounds ar u) {env : Env F n} (h : SqrtPos env) {p : Pbm F n m} {s : Scaling F n m}
    (hs : scaleAllR ar env.sqrt p = some s) : s.Pos := by
  have hinc : ∀ a, 0 < incFactorR ar env.sqrt a := by
    intro a
    unfold incFactorR
    refine hr.fl_pos (h _ (hr.fl_pos (div_pos one_pos ?_)))
    have : (0 : F) < 1 / 100000000 := by norm_num
    exact lt_of_lt_of_le this (le_max_right _ _)
  have hround : ∀ s : Scaling F n m, s.Pos → (scaleRoundR ar env.sqrt p s).Pos := fun s hs =>
    ⟨hs.1, fun j => hr.fl_pos (mul_pos (hinc _) (hs.2.1 j)), fun i => hr.fl_pos (mul_pos (hinc _) (hs.2.2 i))⟩
  have hloop : ∀ (r : ℕ) (s : Scaling F n m), s.Pos → (scaleLoopR ar env.sqrt p r s).Pos := by
    intro r
    induction r with
    | zero => exact hround
    | succ r ih =>
      intro s hs
      rw [scaleLoopR]
      split
      · exact ih _ (hround _ hs)
      · exact hround _ hs
  unfold scaleAllR at hs
  split at hs
  · cases hs
  · cases hs
    refine hloop 10 _ ⟨hr.fl_pos (div_pos one_pos ?_), fun _ => one_pos, fun _ => one_pos⟩
    have : (0 : F) < 1 / 1000000 := by norm_num
    exact lt_of_lt_of_le this (le_trans (le_max_left _ _) (le_max_left _ _))

theorem rhoVecR_pos (hr : Rounds ar u) {prm : Params F} (h : 0 < prm.rho) (p : Pbm F n m) (s : Scaling F n m) (i : Fin m) :
    0 < rhoVecR ar prm p s i := by
  unfold rhoVecR rhoOfR
  split
  · norm_num
  · split
    · exact hr.fl_pos (by positivity)
    · exact h
  · exact h

/-- A loop that ends with `Optimal` ends with a check that said so. -/
theorem loopR_optimal {env : Env F n} {prm : Params F} {p : Pbm F n m} {s : Scaling F n m} {next : It F n m → It F n m} :
    ∀ {fuel iter : ℕ} {ret : Option Status} {it : It F n m} {k : ℕ} {it' : It F n m},
      loopR ar env prm p s next fuel iter ret it = .ok (k, some .optimal, it') →
      ret = some .optimal ∨ (ret = none ∧ ∃ j old, it' = next old ∧ checkR ar env prm p s j old it' = some .optimal) := by
  intro fuel
  induction fuel with
  | zero => intro _ _ _ _ _ h; simp [loopR] at h
  | succ fuel ih =>
    intro iter ret it k it' h
    rw [loopR] at h
    split at h
    · rename_i hc
      split at h
      · cases h
      · right
        refine ⟨hc.2, ?_⟩
        rcases ih h with h' | ⟨_, h'⟩
        · split at h'
          · rename_i hz
            have hck := h'
            -- the loop returns at once
            have hend : it' = next it := by
              rw [if_pos hz, h'] at h
              cases fuel with
              | zero => simp [loopR] at h
              | succ f =>
                rw [loopR, if_neg (by simp)] at h
                cases h; rfl
            exact ⟨iter, it, hend, by rw [hend]; exact hck⟩
          · cases h'
        · exact h'
    · cases h; exact Or.inl rfl

end run

end Verif.QP
