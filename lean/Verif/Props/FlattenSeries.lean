import Verif.Model.Flatten
import Mathlib.NumberTheory.Bernoulli
import Mathlib.Tactic.IntervalCases
import Mathlib.Tactic.NormNum

/-! # The table of coefficients (C36) -/

namespace Verif.Flatten

theorem sum_bern (n : ℕ) (hn : n ≠ 0) : bernoulli n = -(∑ k ∈ Finset.range n, ((n + 1).choose k : ℚ) * bernoulli k) / (n + 1) := by
  have h := sum_bernoulli (n + 1)
  rw [if_neg (by omega), Finset.sum_range_succ] at h
  have e : ((n + 1).choose n : ℚ) = n + 1 := by
    rw [Nat.choose_succ_self_right]; push_cast; ring
  rw [e] at h
  field_simp
  linarith

/-- **C36.** The table holds the Bernoulli numbers `B₀, …, B₂₂`. -/
theorem bernoulli_table : (kBn : List ℚ) = (List.range 23).map bernoulli := by
  have b0 : bernoulli 0 = 1 := bernoulli_zero
  have b1 : bernoulli 1 = -1 / 2 := bernoulli_one
  have b2 : bernoulli 2 = 1 / 6 := by
    rw [sum_bern 2 (by simp)]
    simp only [Finset.sum_range_succ, Finset.sum_range_zero, b0, b1]
    norm_num [Nat.choose]
  have b3 : bernoulli 3 = 0 := bernoulli_eq_zero_of_odd (by decide) (by norm_num)
  have b4 : bernoulli 4 = -1 / 30 := by
    rw [sum_bern 4 (by simp)]
    simp only [Finset.sum_range_succ, Finset.sum_range_zero, b0, b1, b2, b3]
    norm_num [Nat.choose]
  have b5 : bernoulli 5 = 0 := bernoulli_eq_zero_of_odd (by decide) (by norm_num)
  have b6 : bernoulli 6 = 1 / 42 := by
    rw [sum_bern 6 (by simp)]
    simp only [Finset.sum_range_succ, Finset.sum_range_zero, b0, b1, b2, b3, b4, b5]
    norm_num [Nat.choose]
  have b7 : bernoulli 7 = 0 := bernoulli_eq_zero_of_odd (by decide) (by norm_num)
  have b8 : bernoulli 8 = -1 / 30 := by
    rw [sum_bern 8 (by simp)]
    simp only [Finset.sum_range_succ, Finset.sum_range_zero, b0, b1, b2, b3, b4, b5, b6, b7]
    norm_num [Nat.choose]
  have b9 : bernoulli 9 = 0 := bernoulli_eq_zero_of_odd (by decide) (by norm_num)
  have b10 : bernoulli 10 = 5 / 66 := by
    rw [sum_bern 10 (by simp)]
    simp only [Finset.sum_range_succ, Finset.sum_range_zero, b0, b1, b2, b3, b4, b5, b6, b7, b8, b9]
    norm_num [Nat.choose]
  have b11 : bernoulli 11 = 0 := bernoulli_eq_zero_of_odd (by decide) (by norm_num)
  have b12 : bernoulli 12 = -691 / 2730 := by
    rw [sum_bern 12 (by simp)]
    simp only [Finset.sum_range_succ, Finset.sum_range_zero, b0, b1, b2, b3, b4, b5, b6, b7, b8, b9, b10, b11]
    norm_num [Nat.choose]
  have b13 : bernoulli 13 = 0 := bernoulli_eq_zero_of_odd (by decide) (by norm_num)
  have b14 : bernoulli 14 = 7 / 6 := by
    rw [sum_bern 14 (by simp)]
    simp only [Finset.sum_range_succ, Finset.sum_range_zero, b0, b1, b2, b3, b4, b5, b6, b7, b8, b9, b10, b11, b12, b13]
    norm_num [Nat.choose]
  have b15 : bernoulli 15 = 0 := bernoulli_eq_zero_of_odd (by decide) (by norm_num)
  have b16 : bernoulli 16 = -3617 / 510 := by
    rw [sum_bern 16 (by simp)]
    simp only [Finset.sum_range_succ, Finset.sum_range_zero, b0, b1, b2, b3, b4, b5, b6, b7, b8, b9, b10, b11, b12, b13, b14, b15]
    norm_num [Nat.choose]
  have b17 : bernoulli 17 = 0 := bernoulli_eq_zero_of_odd (by decide) (by norm_num)
  have b18 : bernoulli 18 = 43867 / 798 := by
    rw [sum_bern 18 (by simp)]
    simp only [Finset.sum_range_succ, Finset.sum_range_zero, b0, b1, b2, b3, b4, b5, b6, b7, b8, b9, b10, b11, b12, b13, b14, b15, b16, b17]
    norm_num [Nat.choose]
  have b19 : bernoulli 19 = 0 := bernoulli_eq_zero_of_odd (by decide) (by norm_num)
  have b20 : bernoulli 20 = -174611 / 330 := by
    rw [sum_bern 20 (by simp)]
    simp only [Finset.sum_range_succ, Finset.sum_range_zero, b0, b1, b2, b3, b4, b5, b6, b7, b8, b9, b10, b11, b12, b13, b14, b15, b16, b17, b18, b19]
    norm_num [Nat.choose]
  have b21 : bernoulli 21 = 0 := bernoulli_eq_zero_of_odd (by decide) (by norm_num)
  have b22 : bernoulli 22 = 854513 / 138 := by
    rw [sum_bern 22 (by simp)]
    simp only [Finset.sum_range_succ, Finset.sum_range_zero, b0, b1, b2, b3, b4, b5, b6, b7, b8, b9, b10, b11, b12, b13, b14, b15, b16, b17, b18, b19, b20, b21]
    norm_num [Nat.choose]
  simp only [List.range, List.range.loop, List.map, kBn, b0, b1, b2, b3, b4, b5, b6, b7, b8, b9, b10, b11, b12, b13, b14, b15, b16, b17, b18, b19, b20, b21, b22]

/-- **C36.** The same over any field of characteristic zero. -/
theorem bernoulli_table_field {F : Type*} [Field F] [CharZero F] : (kBn : List F) = (List.range 23).map fun i => ((bernoulli i : ℚ) : F) := by
  have e : (kBn : List F) = (kBn : List ℚ).map (Rat.cast : ℚ → F) := by
    simp [kBn]
  rw [e, bernoulli_table, List.map_map]
  rfl

end Verif.Flatten
