import Verif.Proofs.QPRound
import Mathlib.Data.Int.Log
import Mathlib.Data.Rat.Floor
import Mathlib.Algebra.Order.Floor.Ring
import Mathlib.Algebra.BigOperators.Fin

/-!
# Binary floating point numbers meet the assumptions on rounded arithmetic

Rounding to nearest, ties to even, with a precision of `p + 1` bits and without limits on the exponent (`p = 52` for `double`), and
inner products from left to right.
-/

namespace Verif.QP

open Matrix Verif.QPSpec

/-- The nearest integer, ties to even. -/
def nearest (y : ℚ) : ℤ :=
  if y - ⌊y⌋ < 1 / 2 then ⌊y⌋ else if 1 / 2 < y - ⌊y⌋ then ⌊y⌋ + 1 else if ⌊y⌋ % 2 = 0 then ⌊y⌋ else ⌊y⌋ + 1

theorem nearest_bounds (y : ℚ) : ⌊y⌋ ≤ nearest y ∧ nearest y ≤ ⌊y⌋ + 1 := by
  unfold nearest
  split_ifs <;> omega

theorem nearest_err (y : ℚ) : |(nearest y : ℚ) - y| ≤ 1 / 2 := by
  unfold nearest
  have h1 := Int.floor_le y
  have h2 := Int.lt_floor_add_one y
  split_ifs <;> push_cast <;> rw [abs_le] <;> constructor <;> linarith

theorem nearest_mono : Monotone nearest := by
  intro x y h
  have hf := Int.floor_le_floor h
  rcases hf.lt_or_eq with hlt | heq
  · have := nearest_bounds x
    have := nearest_bounds y
    omega
  · unfold nearest
    rw [heq]
    split_ifs <;> first | omega | (exfalso; linarith)

theorem nearest_int (k : ℤ) : nearest (k : ℚ) = k := by simp [nearest]

theorem nearest_le {y : ℚ} {k : ℤ} (h : y ≤ k) : nearest y ≤ k := by
  have := nearest_mono h; rwa [nearest_int] at this

theorem le_nearest {y : ℚ} {k : ℤ} (h : (k : ℚ) ≤ y) : k ≤ nearest y := by
  have := nearest_mono h; rwa [nearest_int] at this

/-- The unit in the last place of a number of the binade of `x`, with `p + 1` bits. -/
def ulp (p : ℕ) (x : ℚ) : ℚ := 2 ^ (Int.log 2 |x| - p)

/-- Rounding to `p + 1` bits. -/
def flBits (p : ℕ) (x : ℚ) : ℚ := if x = 0 then 0 else nearest (x / ulp p x) * ulp p x

theorem ulp_pos (p : ℕ) (x : ℚ) : 0 < ulp p x := zpow_pos (by norm_num) _

theorem log_bounds {x : ℚ} (h : x ≠ 0) : (2 : ℚ) ^ Int.log 2 |x| ≤ |x| ∧ |x| < 2 ^ (Int.log 2 |x| + 1) :=
  ⟨by exact_mod_cast Int.zpow_log_le_self (b := 2) (by norm_num) (abs_pos.2 h),
    by exact_mod_cast Int.lt_zpow_succ_log_self (b := 2) (by norm_num) |x|⟩

theorem ulp_le (p : ℕ) {x : ℚ} (h : x ≠ 0) : ulp p x * 2 ^ p ≤ |x| := by
  unfold ulp
  rw [← zpow_natCast, ← zpow_add₀ (by norm_num)]
  simpa using (log_bounds h).1

theorem flBits_err (p : ℕ) (x : ℚ) : |flBits p x - x| ≤ (1 / 2 ^ (p + 1)) * |x| := by
  unfold flBits
  split_ifs with h
  · simp [h]
  · have hu := ulp_pos p x
    have h1 := nearest_err (x / ulp p x)
    have h2 := mul_le_mul_of_nonneg_right h1 hu.le
    rw [← abs_of_pos hu, ← abs_mul, abs_of_pos hu, sub_mul, div_mul_cancel₀ _ hu.ne'] at h2
    have h3 := ulp_le p h
    refine h2.trans ?_
    have h4 : ulp p x ≤ |x| / 2 ^ p := by rwa [le_div_iff₀ (by positivity)]
    calc 1 / 2 * ulp p x ≤ 1 / 2 * (|x| / 2 ^ p) := by linarith
      _ = 1 / 2 ^ (p + 1) * |x| := by rw [pow_succ]; field_simp

/-- A positive result stays in the closed binade. -/
theorem flBits_pos (p : ℕ) {x : ℚ} (h : 0 < x) : (2 : ℚ) ^ Int.log 2 |x| ≤ flBits p x ∧ flBits p x ≤ 2 ^ (Int.log 2 |x| + 1) := by
  have hu := ulp_pos p x
  have hb := log_bounds h.ne'
  have e1 : (2 : ℚ) ^ Int.log 2 |x| = ((2 ^ p : ℤ) : ℚ) * ulp p x := by
    unfold ulp
    push_cast
    rw [← zpow_natCast, ← zpow_add₀ (by norm_num)]
    congr 1; ring
  have e2 : (2 : ℚ) ^ (Int.log 2 |x| + 1) = ((2 ^ (p + 1) : ℤ) : ℚ) * ulp p x := by
    rw [zpow_add_one₀ (by norm_num), e1]; push_cast; ring
  rw [abs_of_pos h] at hb
  unfold flBits
  rw [if_neg h.ne', e1, e2]
  rw [abs_of_pos h] at e1 e2
  constructor
  · refine mul_le_mul_of_nonneg_right ?_ hu.le
    have : (2 ^ p : ℤ) ≤ nearest (x / ulp p x) := le_nearest (by rw [le_div_iff₀ hu, ← e1]; exact hb.1)
    exact_mod_cast this
  · refine mul_le_mul_of_nonneg_right ?_ hu.le
    have : nearest (x / ulp p x) ≤ (2 ^ (p + 1) : ℤ) := nearest_le (by rw [div_le_iff₀ hu, ← e2]; exact hb.2.le)
    exact_mod_cast this

/-- A negative result stays in the closed binade. -/
theorem flBits_neg (p : ℕ) {x : ℚ} (h : x < 0) : flBits p x ≤ -2 ^ Int.log 2 |x| ∧ -2 ^ (Int.log 2 |x| + 1) ≤ flBits p x := by
  have hu := ulp_pos p x
  have hb := log_bounds h.ne
  have e1 : (2 : ℚ) ^ Int.log 2 |x| = ((2 ^ p : ℤ) : ℚ) * ulp p x := by
    unfold ulp
    push_cast
    rw [← zpow_natCast, ← zpow_add₀ (by norm_num)]
    congr 1; ring
  have e2 : (2 : ℚ) ^ (Int.log 2 |x| + 1) = ((2 ^ (p + 1) : ℤ) : ℚ) * ulp p x := by
    rw [zpow_add_one₀ (by norm_num), e1]; push_cast; ring
  rw [e1, e2] at hb
  rw [abs_of_neg h] at hb
  unfold flBits
  rw [if_neg h.ne, e1, e2, ← neg_mul, ← neg_mul]
  constructor
  · refine mul_le_mul_of_nonneg_right ?_ hu.le
    have : nearest (x / ulp p x) ≤ (-2 ^ p : ℤ) := nearest_le (by
      rw [div_le_iff₀ hu]; push_cast; push_cast at hb; linarith [hb.1])
    exact_mod_cast this
  · refine mul_le_mul_of_nonneg_right ?_ hu.le
    have : (-2 ^ (p + 1) : ℤ) ≤ nearest (x / ulp p x) := le_nearest (by
      rw [le_div_iff₀ hu]; push_cast; push_cast at hb; linarith [hb.2])
    exact_mod_cast this

theorem flBits_mono (p : ℕ) : Monotone (flBits p) := by
  intro x y hxy
  rcases lt_trichotomy x 0 with hx | hx | hx
  · rcases lt_trichotomy y 0 with hy | hy | hy
    · have hl : Int.log 2 |y| ≤ Int.log 2 |x| :=
        Int.log_mono_right (abs_pos.2 hy.ne) (by rw [abs_of_neg hx, abs_of_neg hy]; linarith)
      rcases hl.lt_or_eq with hlt | heq
      · refine (flBits_neg p hx).1.trans (le_trans ?_ (flBits_neg p hy).2)
        rw [neg_le_neg_iff]
        exact zpow_le_zpow_right₀ (by norm_num) (by omega)
      · have hu : ulp p y = ulp p x := by unfold ulp; rw [heq]
        unfold flBits
        rw [if_neg hx.ne, if_neg hy.ne, hu]
        refine mul_le_mul_of_nonneg_right ?_ (ulp_pos p x).le
        exact_mod_cast nearest_mono (div_le_div_of_nonneg_right hxy (ulp_pos p x).le)
    · have := (flBits_neg p hx).1
      have h0 : (0 : ℚ) < 2 ^ Int.log 2 |x| := zpow_pos (by norm_num) _
      rw [hy, show flBits p 0 = 0 by simp [flBits]]
      linarith
    · have := (flBits_neg p hx).1
      have h0 : (0 : ℚ) < 2 ^ Int.log 2 |x| := zpow_pos (by norm_num) _
      have := (flBits_pos p hy).1
      have h1 : (0 : ℚ) < 2 ^ Int.log 2 |y| := zpow_pos (by norm_num) _
      linarith
  · rw [hx, show flBits p 0 = 0 by simp [flBits]]
    rcases (hx ▸ hxy : 0 ≤ y).lt_or_eq with hy | hy
    · have := (flBits_pos p hy).1
      have h1 : (0 : ℚ) < 2 ^ Int.log 2 |y| := zpow_pos (by norm_num) _
      linarith
    · rw [← hy]; simp [flBits]
  · have hy : 0 < y := hx.trans_le hxy
    have hl : Int.log 2 |x| ≤ Int.log 2 |y| :=
      Int.log_mono_right (abs_pos.2 hx.ne') (by rw [abs_of_pos hx, abs_of_pos hy]; exact hxy)
    rcases hl.lt_or_eq with hlt | heq
    · refine (flBits_pos p hx).2.trans (le_trans ?_ (flBits_pos p hy).1)
      exact zpow_le_zpow_right₀ (by norm_num) (by omega)
    · have hu : ulp p y = ulp p x := by unfold ulp; rw [heq]
      unfold flBits
      rw [if_neg hx.ne', if_neg hy.ne', hu]
      refine mul_le_mul_of_nonneg_right ?_ (ulp_pos p x).le
      exact_mod_cast nearest_mono (div_le_div_of_nonneg_right hxy (ulp_pos p x).le)

/-- Inner product from left to right. -/
def seqDot {F : Type*} [Field F] (fl : F → F) : (l : ℕ) → (Fin l → F) → (Fin l → F) → F
  | 0, _, _ => 0
  | 1, a, b => fl (a 0 * b 0)
  | l + 2, a, b => fl (seqDot fl (l + 1) (fun i => a i.castSucc) (fun i => b i.castSucc) + fl (a (Fin.last _) * b (Fin.last _)))

/-- Arithmetic in `p + 1` bits. -/
def floatArith (p : ℕ) : Arith ℚ where
  fl := flBits p
  mv := fun M x i => seqDot (flBits p) _ (M i) x
  dot := fun a b => seqDot (flBits p) _ a b
  sum := fun a => seqDot (flBits p) _ a fun _ => 1

theorem seqDot_err {F : Type*} [Field F] [LinearOrder F] [IsStrictOrderedRing F] {fl : F → F} {u : F} (hu : 0 ≤ u)
    (hfl : ∀ a, |fl a - a| ≤ u * |a|) : ∀ (l : ℕ) (a b : Fin l → F),
    Acc u l (seqDot fl l a b) (∑ i, a i * b i) (∑ i, |a i| * |b i|) := by
  have hf : ∀ {k x t T}, Acc u k x t T → Acc u (k + 1) (fl x) t T := by
    intro k x t T h
    refine ⟨?_, h.2⟩
    have h1 := hfl x
    have h2 := mul_le_mul_of_nonneg_left (h.le hu) hu
    have h3 := h.1
    have : |fl x - t| ≤ |fl x - x| + |x - t| := by simpa using abs_add_le (fl x - x) (x - t)
    simp only [amp, pow_succ] at *
    linarith
  intro l
  induction l with
  | zero => intro a b; simp [seqDot, Acc]
  | succ l ih =>
    intro a b
    cases l with
    | zero =>
      rw [seqDot, Fin.sum_univ_one, Fin.sum_univ_one]
      exact hf ((Acc.exact u (a 0)).mul hu (Acc.exact u (b 0)))
    | succ l =>
      rw [seqDot, Fin.sum_univ_castSucc (n := l + 1), Fin.sum_univ_castSucc (n := l + 1)]
      exact hf ((ih _ _).add ((hf ((Acc.exact u (a (Fin.last _))).mul hu (Acc.exact u (b (Fin.last _))))).mono hu (by omega)))

/-- The assumptions are met by binary floating point numbers. -/
theorem floatArith_rounds (p : ℕ) : Rounds (floatArith p) (1 / 2 ^ (p + 1)) where
  nonneg := by positivity
  small := by
    rw [div_lt_one (by positivity)]
    exact one_lt_pow₀ (by norm_num) (by omega)
  fl_err := flBits_err p
  fl_mono := flBits_mono p
  mv_err := fun M x i => (seqDot_err (by positivity) (flBits_err p) _ (M i) x).1

end Verif.QP
