import Verif.Props.QPVerdicts
import Mathlib.Analysis.Real.Sqrt

/-! # Scaling balances the problem (C100) -/

set_option linter.unusedSectionVars false

namespace Verif.QP

open Matrix Verif.QPSpec

variable {F : Type*} [Field F] [LinearOrder F] [IsStrictOrderedRing F] {n m : ℕ} {sqrt : F → F} {p : Pbm F n m}

/-- `std::sqrt` without rounding. -/
def ExactSqrt (sqrt : F → F) : Prop := ∀ a, 0 < a → 0 < sqrt a ∧ sqrt a * sqrt a = a

theorem ExactSqrt.one (h : ExactSqrt sqrt) : sqrt 1 = 1 := by
  obtain ⟨h0, h1⟩ := h 1 one_pos
  nlinarith [sq_nonneg (sqrt 1 - 1), mul_self_eq_one_iff.1 h1 |>.resolve_right (by linarith)]

private theorem incFactor_sq (h : ExactSqrt sqrt) (a : F) :
    0 < incFactor sqrt a ∧ incFactor sqrt a * incFactor sqrt a * max a (1 / 100000000) = 1 := by
  have h0 : (0 : F) < max a (1 / 100000000) := lt_of_lt_of_le (by norm_num) (le_max_right _ _)
  obtain ⟨h1, h2⟩ := h _ (div_pos one_pos h0)
  refine ⟨h1, ?_⟩
  rw [incFactor, h2]
  exact div_mul_cancel₀ _ h0.ne'

private theorem incFactor_one (h : ExactSqrt sqrt) : incFactor sqrt 1 = 1 := by
  rw [incFactor, max_eq_left (by norm_num), div_one, h.one]

private theorem pair_le {f g a b e : F} (hf : 0 < f) (hg : 0 < g) (h1 : f * f * a = 1) (h2 : g * g * b = 1) (he : 0 ≤ e) (ha : e ≤ a) (hb : e ≤ b) :
    f * g * e ≤ 1 := by
  have h0 : 0 ≤ f * g * e := mul_nonneg (mul_pos hf hg).le he
  have h3 : f * g * e * (f * g * e) ≤ 1 := by
    calc f * g * e * (f * g * e) = f * f * (g * g) * (e * e) := by ring
      _ ≤ f * f * (g * g) * (a * b) := mul_le_mul_of_nonneg_left (mul_le_mul ha hb he (he.trans ha)) (by positivity)
      _ = f * f * a * (g * g * b) := by ring
      _ = 1 := by rw [h1, h2, one_mul]
  nlinarith

private theorem le_nz {a b : F} (h0 : 0 ≤ a) (h : a ≤ b) : a ≤ nz b := by
  unfold nz
  split_ifs with hb
  · linarith
  · exact h

private theorem P_le (s : Scaling F n m) (i j : Fin n) : |s.c * s.sx i * s.sx j * p.P i j| ≤ sxInc p s j :=
  le_nz (abs_nonneg _) ((le_norm (fun i => s.c * s.sx i * s.sx j * p.P i j) i).trans (le_max_left _ _))

private theorem A_le_x (s : Scaling F n m) (i : Fin m) (j : Fin n) : |s.sy i * s.sx j * p.A i j| ≤ sxInc p s j :=
  le_nz (abs_nonneg _) ((le_norm (fun i => s.sy i * s.sx j * p.A i j) i).trans (le_max_right _ _))

private theorem A_le_y (s : Scaling F n m) (i : Fin m) (j : Fin n) : |s.sy i * s.sx j * p.A i j| ≤ syInc p s i :=
  le_nz (abs_nonneg _) (le_norm (fun j => s.sy i * s.sx j * p.A i j) j)

private theorem abs_entry_P (hq : ExactSqrt sqrt) (s : Scaling F n m) (i j : Fin n) :
    |(scaledPbm p (scaleRound sqrt p s).c (scaleRound sqrt p s).sx (scaleRound sqrt p s).sy).P i j| =
      incFactor sqrt (sxInc p s i) * incFactor sqrt (sxInc p s j) * |s.c * s.sx i * s.sx j * p.P i j| := by
  have h1 := (incFactor_sq hq (sxInc p s i)).1
  have h2 := (incFactor_sq hq (sxInc p s j)).1
  rw [← abs_of_pos (mul_pos h1 h2), ← abs_mul]
  simp only [scaledPbm, scaleRound]
  congr 1
  ring

private theorem abs_entry_A (hq : ExactSqrt sqrt) (s : Scaling F n m) (i : Fin m) (j : Fin n) :
    |(scaledPbm p (scaleRound sqrt p s).c (scaleRound sqrt p s).sx (scaleRound sqrt p s).sy).A i j| =
      incFactor sqrt (syInc p s i) * incFactor sqrt (sxInc p s j) * |s.sy i * s.sx j * p.A i j| := by
  have h1 := (incFactor_sq hq (syInc p s i)).1
  have h2 := (incFactor_sq hq (sxInc p s j)).1
  rw [← abs_of_pos (mul_pos h1 h2), ← abs_mul]
  simp only [scaledPbm, scaleRound]
  congr 1
  ring

/-- The scaling is the result of a round. -/
private theorem loop_last (sqrt : F → F) (p : Pbm F n m) (r : ℕ) (s : Scaling F n m) :
    ∃ k ≤ r, scaleLoop sqrt p r s = (scaleRound sqrt p)^[k + 1] s := by
  induction r generalizing s with
  | zero => exact ⟨0, le_rfl, rfl⟩
  | succ r ih =>
    rw [scaleLoop]
    split_ifs with h
    · obtain ⟨k, hk, h1⟩ := ih (scaleRound sqrt p s)
      exact ⟨k + 1, by omega, h1⟩
    · exact ⟨0, by omega, rfl⟩

/-- The scaling before the first round: `c_`, and ones. -/
def firstScaling (p : Pbm F n m) : Scaling F n m := ⟨costScale p, fun _ => 1, fun _ => 1⟩

private theorem scale_last {s : Scaling F n m} (hs : scale sqrt p = some s) : ∃ k ≤ 10, s = (scaleRound sqrt p)^[k + 1] (firstScaling p) := by
  unfold scale at hs
  split_ifs at hs
  cases hs
  exact loop_last sqrt p 10 _

/-- **C100.** After scaling no entry of the cost matrix or of the constraint matrix is larger than one, and neither is `c q`, whatever the
magnitudes in the problem. The scale of the cost is at most `1e6`. -/
theorem qp_scaling_entries (hq : ExactSqrt sqrt) (hP : ∀ i j, p.P i j = p.P j i) {s : Scaling F n m} (hs : scale sqrt p = some s) :
    (∀ i j, |(scaledPbm p s.c s.sx s.sy).P i j| ≤ 1) ∧ (∀ i j, |(scaledPbm p s.c s.sx s.sy).A i j| ≤ 1) ∧
      (∀ j, |s.c * p.q j| ≤ 1) ∧ 0 < s.c ∧ s.c ≤ 1000000 := by
  obtain ⟨k, -, rfl⟩ := scale_last hs
  have hc : ∀ k, ((scaleRound sqrt p)^[k] (firstScaling p)).c = costScale p := by
    intro k
    induction k with
    | zero => rfl
    | succ k ih => rw [Function.iterate_succ_apply']; exact ih
  have h6 : (0 : F) < 1 / 1000000 := by norm_num
  have hM : 1 / 1000000 ≤ max (max (1 / 1000000) ((∑ j, costInc p j) / (n : F))) (norm p.q) := (le_max_left _ _).trans (le_max_left _ _)
  refine ⟨fun i j => ?_, fun i j => ?_, fun j => ?_, ?_, ?_⟩
  · rw [Function.iterate_succ_apply', abs_entry_P hq]
    set s := (scaleRound sqrt p)^[k] (firstScaling p)
    obtain ⟨f0, f1⟩ := incFactor_sq hq (sxInc p s i)
    obtain ⟨g0, g1⟩ := incFactor_sq hq (sxInc p s j)
    refine pair_le f0 g0 f1 g1 (abs_nonneg _) ((?_ : _ ≤ sxInc p s i).trans (le_max_left _ _)) ((P_le s i j).trans (le_max_left _ _))
    have := P_le (p := p) s j i
    rwa [hP j i, show s.c * s.sx j * s.sx i = s.c * s.sx i * s.sx j by ring] at this
  · rw [Function.iterate_succ_apply', abs_entry_A hq]
    set s := (scaleRound sqrt p)^[k] (firstScaling p)
    obtain ⟨f0, f1⟩ := incFactor_sq hq (syInc p s i)
    obtain ⟨g0, g1⟩ := incFactor_sq hq (sxInc p s j)
    exact pair_le f0 g0 f1 g1 (abs_nonneg _) ((A_le_y s i j).trans (le_max_left _ _)) ((A_le_x s i j).trans (le_max_left _ _))
  · rw [hc, abs_mul, abs_of_pos (costScale_pos p), costScale, one_div, inv_mul_le_iff₀ (lt_of_lt_of_le h6 hM), mul_one]
    exact (le_norm p.q j).trans (le_max_right _ _)
  · rw [hc]; exact costScale_pos p
  · rw [hc, costScale, div_le_iff₀ (lt_of_lt_of_le h6 hM)]
    linarith

/-- **C100.** A variable that occurs neither in the cost matrix nor in a constraint keeps scale one, and so does a constraint without
variables ("if there are zero cols we don't scale"). -/
theorem qp_scaling_zero (hq : ExactSqrt sqrt) {s : Scaling F n m} (hs : scale sqrt p = some s) :
    (∀ j, (∀ i, p.P i j = 0) → (∀ i, p.A i j = 0) → s.sx j = 1) ∧ ∀ i, (∀ j, p.A i j = 0) → s.sy i = 1 := by
  obtain ⟨k, -, rfl⟩ := scale_last hs
  generalize k + 1 = k
  constructor
  · intro j h1 h2
    induction k with
    | zero => rfl
    | succ k ih =>
      rw [Function.iterate_succ_apply']
      simp only [scaleRound, ih, mul_one]
      have : sxInc p ((scaleRound sqrt p)^[k] (firstScaling p)) j = 1 := by
        have h0 : ∀ N, norm (fun _ : Fin N => (0 : F)) = 0 := fun N => norm_zero
        simp [sxInc, h1, h2, h0, nz]
      rw [this, incFactor_one hq]
  · intro i h1
    induction k with
    | zero => rfl
    | succ k ih =>
      rw [Function.iterate_succ_apply']
      simp only [scaleRound, ih, mul_one]
      have : syInc p ((scaleRound sqrt p)^[k] (firstScaling p)) i = 1 := by
        have h0 : ∀ N, norm (fun _ : Fin N => (0 : F)) = 0 := fun N => norm_zero
        simp [syInc, h1, h0, nz]
      rw [this, incFactor_one hq]

private theorem near_one {a b f g e : F} (hf : 0 < f) (hg : 0 < g) (h1 : f * f * max a (1 / 100000000) = 1) (h2 : g * g * max b (1 / 100000000) = 1)
    (ha : |a - 1| ≤ 1 / 10) (hb : |b - 1| ≤ 1 / 10) (he : e = a) : 9 / 11 ≤ f * g * e := by
  rw [abs_le] at ha hb
  rw [max_eq_left (by linarith)] at h1 h2
  subst he
  have h0 : 0 < f * g * e := mul_pos (mul_pos hf hg) (by linarith)
  have h3 : f * g * e * (f * g * e) * b = e := by
    calc f * g * e * (f * g * e) * b = f * f * e * (g * g * b) * e := by ring
      _ = e := by rw [h1, h2, one_mul, one_mul]
  by_contra hlt
  push Not at hlt
  have h4 : f * g * e * (f * g * e) < 9 / 11 * (9 / 11) := by nlinarith
  nlinarith

/-- The largest entry in each column of `[P; A]` and in each row of `A` is within `1/10` of one, or zero. -/
def Balanced (p : Pbm F n m) : Prop :=
  (∀ j a b, IsMaxNorm (fun i => p.P i j) a → IsMaxNorm (fun i => p.A i j) b → max a b = 0 ∨ |max a b - 1| ≤ 1 / 10) ∧
    ∀ i a, IsMaxNorm (fun j => p.A i j) a → a = 0 ∨ |a - 1| ≤ 1 / 10

private theorem Balanced.inc {s : Scaling F n m} (h : Balanced (scaledPbm p s.c s.sx s.sy)) :
    ¬ 1 / 10 < max (norm fun j => sxInc p s j - 1) (norm fun i => syInc p s i - 1) := by
  have hnz : ∀ a : F, a = 0 ∨ |a - 1| ≤ 1 / 10 → |nz a - 1| ≤ 1 / 10 := by
    rintro a (rfl | h)
    · simp [nz]
    · rw [nz, if_neg]
      · exact h
      · rintro rfl; norm_num at h
  rw [not_lt, max_le_iff]
  refine ⟨norm_le (by norm_num) fun j => hnz _ ?_, norm_le (by norm_num) fun i => hnz _ ?_⟩
  · have e1 : (fun i => s.c * s.sx i * s.sx j * p.P i j) = fun i => (scaledPbm p s.c s.sx s.sy).P i j := by
      funext i; simp only [scaledPbm]; ring
    have e2 : (fun i => s.sy i * s.sx j * p.A i j) = fun i => (scaledPbm p s.c s.sx s.sy).A i j := by
      funext i; simp only [scaledPbm]; ring
    rw [e1, e2]
    exact h.1 j _ _ (norm_isMaxNorm _) (norm_isMaxNorm _)
  · have e2 : (fun j => s.sy i * s.sx j * p.A i j) = fun j => (scaledPbm p s.c s.sx s.sy).A i j := by
      funext j; simp only [scaledPbm]; ring
    rw [e2]
    exact h.2 i _ (norm_isMaxNorm _)

private theorem loop_stops (sqrt : F → F) (p : Pbm F n m) (r : ℕ) (s : Scaling F n m)
    (h : ∃ k ≤ r, ¬ 1 / 10 < max (norm fun j => sxInc p ((scaleRound sqrt p)^[k] s) j - 1) (norm fun i => syInc p ((scaleRound sqrt p)^[k] s) i - 1)) :
    ∃ k ≤ r, scaleLoop sqrt p r s = (scaleRound sqrt p)^[k + 1] s ∧
      ¬ 1 / 10 < max (norm fun j => sxInc p ((scaleRound sqrt p)^[k] s) j - 1) (norm fun i => syInc p ((scaleRound sqrt p)^[k] s) i - 1) := by
  induction r generalizing s with
  | zero =>
    obtain ⟨k, hk, h⟩ := h
    obtain rfl : k = 0 := by omega
    exact ⟨0, le_rfl, rfl, h⟩
  | succ r ih =>
    rw [scaleLoop]
    split_ifs with hc
    · obtain ⟨k, hk, h⟩ := h
      cases k with
      | zero => exact absurd hc h
      | succ k =>
        obtain ⟨k', hk', h1, h2⟩ := ih (scaleRound sqrt p s) ⟨k, by omega, h⟩
        exact ⟨k' + 1, by omega, h1, h2⟩
    · exact ⟨0, by omega, rfl, hc⟩

/-- **C100.** If one of the first eleven scalings (after 0 to 10 rounds) has all largest entries within `1/10` of one, then in the result every
variable that occurs in the cost matrix or in a constraint has an entry of at least `9/11`, and every constraint with variables too (and by
`qp_scaling_entries` at most one). -/
theorem qp_scaling_balanced (hq : ExactSqrt sqrt) {s : Scaling F n m} (hs : scale sqrt p = some s)
    (hb : ∃ k ≤ 10, ∃ s', s' = (scaleRound sqrt p)^[k] (firstScaling p) ∧ Balanced (scaledPbm p s'.c s'.sx s'.sy)) :
    (∀ j, ((∃ i, p.P i j ≠ 0) ∨ ∃ i, p.A i j ≠ 0) →
      (∃ i, 9 / 11 ≤ |(scaledPbm p s.c s.sx s.sy).P i j|) ∨ ∃ i, 9 / 11 ≤ |(scaledPbm p s.c s.sx s.sy).A i j|) ∧
    ∀ i, (∃ j, p.A i j ≠ 0) → ∃ j, 9 / 11 ≤ |(scaledPbm p s.c s.sx s.sy).A i j| := by
  obtain ⟨k', hk', _, rfl, hb⟩ := hb
  obtain ⟨k, h0, h⟩ : ∃ k, s = (scaleRound sqrt p)^[k + 1] (firstScaling p) ∧
      ¬ 1 / 10 < max (norm fun j => sxInc p ((scaleRound sqrt p)^[k] (firstScaling p)) j - 1)
        (norm fun i => syInc p ((scaleRound sqrt p)^[k] (firstScaling p)) i - 1) := by
    unfold scale at hs
    split_ifs at hs
    cases hs
    obtain ⟨k, -, h⟩ := loop_stops sqrt p 10 (firstScaling p) ⟨k', hk', hb.inc⟩
    exact ⟨k, h⟩
  subst h0
  have hpos : ∀ k, ((scaleRound sqrt p)^[k] (firstScaling p)).Pos := by
    intro k
    induction k with
    | zero => exact ⟨costScale_pos p, fun _ => one_pos, fun _ => one_pos⟩
    | succ k ih =>
      rw [Function.iterate_succ_apply']
      exact ⟨ih.1, fun j => mul_pos (incFactor_sq hq _).1 (ih.2.1 j), fun i => mul_pos (incFactor_sq hq _).1 (ih.2.2 i)⟩
  have hp := hpos k
  rw [Function.iterate_succ_apply']
  simp only [abs_entry_P hq, abs_entry_A hq]
  set s := (scaleRound sqrt p)^[k] (firstScaling p)
  have hx : ∀ j, |sxInc p s j - 1| ≤ 1 / 10 := fun j => (le_norm (fun j => sxInc p s j - 1) j).trans ((le_max_left _ _).trans (not_lt.1 h))
  have hy : ∀ i, |syInc p s i - 1| ≤ 1 / 10 := fun i => (le_norm (fun i => syInc p s i - 1) i).trans ((le_max_right _ _).trans (not_lt.1 h))
  have fx := fun j => incFactor_sq hq (sxInc p s j)
  have fy := fun i => incFactor_sq hq (syInc p s i)
  constructor
  · intro j hj
    have hne : max (norm fun i => s.c * s.sx i * s.sx j * p.P i j) (norm fun i => s.sy i * s.sx j * p.A i j) ≠ 0 := by
      have h0 : 0 < max (norm fun i => s.c * s.sx i * s.sx j * p.P i j) (norm fun i => s.sy i * s.sx j * p.A i j) := by
        rcases hj with ⟨i, hi⟩ | ⟨i, hi⟩
        · exact lt_of_lt_of_le (abs_pos.2 (mul_ne_zero (mul_pos (mul_pos hp.1 (hp.2.1 i)) (hp.2.1 j)).ne' hi))
            ((le_norm (fun i => s.c * s.sx i * s.sx j * p.P i j) i).trans (le_max_left _ _))
        · exact lt_of_lt_of_le (abs_pos.2 (mul_ne_zero (mul_pos (hp.2.2 i) (hp.2.1 j)).ne' hi))
            ((le_norm (fun i => s.sy i * s.sx j * p.A i j) i).trans (le_max_right _ _))
      exact h0.ne'
    have hval : sxInc p s j = max (norm fun i => s.c * s.sx i * s.sx j * p.P i j) (norm fun i => s.sy i * s.sx j * p.A i j) := by
      rw [sxInc, nz, if_neg hne]
    rcases max_choice (norm fun i => s.c * s.sx i * s.sx j * p.P i j) (norm fun i => s.sy i * s.sx j * p.A i j) with hm | hm
    · left
      rw [hm] at hne hval
      rcases (norm_isMaxNorm fun i => s.c * s.sx i * s.sx j * p.P i j).2.2 with h0 | ⟨i, hi⟩
      · exact absurd h0 hne
      refine ⟨i, ?_⟩
      rw [mul_comm (incFactor _ _)]
      exact near_one (fx j).1 (fx i).1 (fx j).2 (fx i).2 (hx j) (hx i) (by rw [hval, hi])
    · right
      rw [hm] at hne hval
      rcases (norm_isMaxNorm fun i => s.sy i * s.sx j * p.A i j).2.2 with h0 | ⟨i, hi⟩
      · exact absurd h0 hne
      refine ⟨i, ?_⟩
      rw [mul_comm (incFactor _ _)]
      exact near_one (fx j).1 (fy i).1 (fx j).2 (fy i).2 (hx j) (hy i) (by rw [hval, hi])
  · rintro i ⟨j', hj'⟩
    have hne : (norm fun j => s.sy i * s.sx j * p.A i j) ≠ 0 :=
      (lt_of_lt_of_le (abs_pos.2 (mul_ne_zero (mul_pos (hp.2.2 i) (hp.2.1 j')).ne' hj')) (le_norm (fun j => s.sy i * s.sx j * p.A i j) j')).ne'
    have hval : syInc p s i = norm fun j => s.sy i * s.sx j * p.A i j := by rw [syInc, nz, if_neg hne]
    rcases (norm_isMaxNorm fun j => s.sy i * s.sx j * p.A i j).2.2 with h0 | ⟨j, hj⟩
    · exact absurd h0 hne
    refine ⟨j, ?_⟩
    exact near_one (fy i).1 (fx j).1 (fy i).2 (fx j).2 (hy i) (hx j) (by rw [hval, hj])

/-! ## Examples -/

theorem real_sqrt_exact : ExactSqrt Real.sqrt := fun _ h => ⟨Real.sqrt_pos.2 h, Real.mul_self_sqrt h.le⟩

/-- Large and small numbers, a variable without any entry, a constraint without variables. -/
noncomputable def wildPbm : Pbm ℝ 2 2 where
  P := fun i j => if i = 0 ∧ j = 0 then 10 ^ 9 else 0
  q := fun _ => 10 ^ 5
  A := fun i j => if i = 0 ∧ j = 0 then 1 / 10 ^ 3 else 0
  l := fun _ => .neg
  u := fun _ => .fin 1

example : ∃ s, scale Real.sqrt wildPbm = some s ∧ (∀ i j, |(scaledPbm wildPbm s.c s.sx s.sy).P i j| ≤ 1) ∧ s.sx 1 = 1 ∧ s.sy 1 = 1 := by
  refine ⟨_, rfl, (qp_scaling_entries real_sqrt_exact (fun i j => by simp [wildPbm, and_comm]) rfl).1,
    (qp_scaling_zero real_sqrt_exact rfl).1 1 (fun i => by simp [wildPbm]) (fun i => by simp [wildPbm]),
    (qp_scaling_zero real_sqrt_exact rfl).2 1 fun j => by simp [wildPbm]⟩

/-- Balanced once the cost is divided by four. -/
noncomputable def evenPbm : Pbm ℝ 1 1 where
  P := fun _ _ => 4
  q := fun _ => 1
  A := fun _ _ => 1
  l := fun _ => .fin 0
  u := fun _ => .fin 1

example : ∃ s, scale Real.sqrt evenPbm = some s ∧ ∃ i, 9 / 11 ≤ |(scaledPbm evenPbm s.c s.sx s.sy).A i 0| := by
  have hn : ∀ a : ℝ, IsMaxNorm (fun _ : Fin 1 => a) |a| := fun a => ⟨abs_nonneg _, fun _ => le_rfl, Or.inr ⟨0, rfl⟩⟩
  have hn' : ∀ a : ℝ, norm (fun _ : Fin 1 => a) = |a| := fun a => isMaxNorm_unique (norm_isMaxNorm _) (hn a)
  have hc : costScale evenPbm = 1 / 4 := by
    simp only [costScale, costInc, evenPbm, hn', nz]
    norm_num
  refine ⟨_, rfl, ?_⟩
  have := (qp_scaling_balanced (p := evenPbm) real_sqrt_exact rfl ⟨0, by omega, _, rfl, ?_, ?_⟩).2 0 ⟨0, by simp [evenPbm]⟩
  · obtain ⟨j, hj⟩ := this
    obtain rfl : j = 0 := Subsingleton.elim _ _
    exact ⟨0, hj⟩
  · intro j a b ha hb
    have e : (fun i => (scaledPbm evenPbm (firstScaling evenPbm).c (firstScaling evenPbm).sx (firstScaling evenPbm).sy).P i j) = fun _ => (1 : ℝ) := by
      simp only [firstScaling, scaledPbm, hc]
      simp [evenPbm]
    have ha' : IsMaxNorm (fun _ : Fin 1 => (1 : ℝ)) a := e ▸ ha
    rw [isMaxNorm_unique ha' (hn 1),
      isMaxNorm_unique hb (hn (1 * 1 * 1) |> fun h => by simpa [firstScaling, scaledPbm, hc, evenPbm] using h)]
    norm_num
  · intro i a ha
    rw [isMaxNorm_unique ha (hn (1 * 1 * 1) |> fun h => by simpa [firstScaling, scaledPbm, hc, evenPbm] using h)]
    norm_num

end Verif.QP
