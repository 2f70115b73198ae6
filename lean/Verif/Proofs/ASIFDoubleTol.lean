import Verif.Proofs.ASIFDoubleSim
import Mathlib.Data.Real.Basic
import Mathlib.Tactic.IntervalCases
import Mathlib.Algebra.BigOperators.Fin
import Mathlib.Algebra.Order.BigOperators.Group.Finset
import Mathlib.Tactic.Linarith

/-!
# The safety filter example with the default tolerances: arithmetic (for C127)

`tol_push`: residuals of the size that the default tolerances allow cannot make the correction much smaller than the violated conditions ask for.
`diPush`: the part of this that does not depend on the solver.
-/

namespace Verif.ASIF

/-- Approximate Karush-Kuhn-Tucker conditions of the program of the example: `mu` is the correction, `s` the slack, `y`, `yi`, `ys` are the multipliers of the barrier rows, of the input
limits and of the sign of the slack. -/
theorem tol_push {ι : Type} [Fintype ι] {al c y : ι → ℝ} {mu s yi ys rp rd w : ℝ} (ha : ∀ i, 0 ≤ al i) (hy : ∀ i, y i ≤ 0) (hys : ys ≤ 0)
    (h1 : |mu + yi - ∑ i, al i * y i| ≤ rd) (h2 : |100 * s + ∑ i, y i + ys| ≤ rd) (hact : ∀ i, y i < 0 → s ≤ c i + al i * mu + rp)
    (hact' : ys < 0 → s ≤ rp) (hrp : 0 ≤ rp) (hs : -rp ≤ s) (hyi : 0 < yi → -rp ≤ mu) (hm1 : -2 - rp ≤ mu) (hm2 : mu ≤ rp)
    (hp : rp ≤ (1 + |mu| + |s| + rp) / 999) (hd : rd ≤ (1 + max |mu| (100 * |s|) + rd) / 999)
    (hB : ∀ i, c i + al i * (w - 1) ≤ 1 / 8) (hH : ∀ i, 100 * (al i * (c i + al i * (w - 1) + 1 / 300)) + (1 + al i) / 60 ≤ 1 - w) (hw : w ≤ 19 / 20) :
    w ≤ 1 + mu := by
  by_contra hlt
  push Not at hlt
  have hrd : 0 ≤ rd := (abs_nonneg _).trans h1
  have a1 := abs_le.1 h1
  have a2 := abs_le.1 h2
  have hS0 : ∑ i, y i ≤ 0 := Finset.sum_nonpos fun i _ => hy i
  -- the slack is small
  have hs2 : s ≤ 1 / 8 + rp ∨ 100 * s ≤ rd := by
    by_cases hex : ∃ i, y i < 0
    · obtain ⟨i, hi⟩ := hex
      left
      have := hact i hi
      have h3 : al i * mu ≤ al i * (w - 1) := mul_le_mul_of_nonneg_left (by linarith) (ha i)
      linarith [hB i]
    · push Not at hex
      have e : ∑ i, y i = 0 := Finset.sum_eq_zero fun i _ => le_antisymm (hy i) (hex i)
      rw [e] at a2
      rcases hys.lt_or_eq with h | h
      · left
        linarith [hact' h]
      · right
        linarith
  have hmabs : |mu| ≤ 2 + rp := abs_le.2 ⟨by linarith, by linarith⟩
  have hsabs : |s| ≤ 1 / 8 + rp ∨ (|s| ≤ rd / 100 ∨ |s| ≤ rp) := by
    rcases hs2 with h | h
    · exact .inl (abs_le.2 ⟨by linarith, h⟩)
    · rcases le_total 0 s with h0 | h0
      · exact .inr (.inl (by rw [abs_of_nonneg h0]; linarith))
      · exact .inr (.inr (by rw [abs_of_nonpos h0]; linarith))
  have hres : rp ≤ 1 / 300 ∧ rd ≤ 1 / 60 := by
    rcases max_cases |mu| (100 * |s|) with ⟨e, -⟩ | ⟨e, -⟩ <;> rw [e] at hd <;> rcases hsabs with h | h | h <;> constructor <;> linarith
  obtain ⟨hrp', hrd'⟩ := hres
  have hyi0 : yi ≤ 0 := by
    by_contra hh
    push Not at hh
    linarith [hyi hh]
  by_cases hex : ∃ i, y i < 0
  · obtain ⟨i0, hi0⟩ := hex
    obtain ⟨i, hi, hmax⟩ := Finset.exists_max_image (Finset.univ.filter fun i => y i < 0) al ⟨i0, by simpa using hi0⟩
    simp only [Finset.mem_filter, Finset.mem_univ, true_and] at hi hmax
    have e1 : -(∑ i, al i * y i) ≤ al i * -(∑ i, y i) := by
      rw [← Finset.sum_neg_distrib, ← Finset.sum_neg_distrib, Finset.mul_sum]
      refine Finset.sum_le_sum fun j _ => ?_
      rcases (hy j).lt_or_eq with h | h
      · have := mul_le_mul_of_nonneg_right (hmax j h) (neg_nonneg.2 (hy j))
        linarith
      · rw [h]; simp
    have e2 : -(∑ i, y i) ≤ 100 * (c i + al i * (w - 1) + 1 / 300) + 1 / 60 := by
      have h3 : al i * mu ≤ al i * (w - 1) := mul_le_mul_of_nonneg_left (by linarith) (ha i)
      have := hact i hi
      linarith
    have e3 := mul_le_mul_of_nonneg_left e2 (ha i)
    have := hH i
    linarith
  · push Not at hex
    have e : ∑ i, al i * y i = 0 := Finset.sum_eq_zero fun i _ => by rw [le_antisymm (hy i) (hex i), mul_zero]
    rw [e] at a1
    linarith

/-- A lower bound for speed plus input, in terms of position plus speed. -/
noncomputable def diPush (q : ℝ) : ℝ := if q ≤ 61 / 20 then min (7 / 5) (1 / 100 + 8 / 5 * (61 / 20 - q)) else 1 / 100 - 5 * (q - 61 / 20)

set_option maxHeartbeats 1000000 in
/-- With this input the barrier conditions are violated by so little that the filter does not brake more. -/
theorem diPush_rows {x v w : ℝ} (hv : 0 ≤ v) (hq : x + v ≤ 311 / 100) (hw : w ≤ diPush (x + v) - v) (hw1 : w ≤ 19 / 20) (k : ℕ) (hk : k < 50) :
    (x + v - 3 + (k : ℝ) / 100 * (v + w) - 3 / 10 * ((k : ℝ) / 100) * ((k : ℝ) / 100 - 1 / 100) ≤ 1 / 8 ∧
      100 * ((k : ℝ) / 100 * (x + v - 3 + (k : ℝ) / 100 * (v + w) - 3 / 10 * ((k : ℝ) / 100) * ((k : ℝ) / 100 - 1 / 100) + 1 / 300)) + (1 + (k : ℝ) / 100) / 60 ≤ 1 - w) ∧
    w + v - 3 / 2 - 3 / 5 * ((k : ℝ) / 100) ≤ 1 / 8 ∧ 100 * (w + v - 3 / 2 - 3 / 5 * ((k : ℝ) / 100) + 1 / 300) + (1 + 1) / 60 ≤ 1 - w := by
  obtain ⟨p, hp⟩ : ∃ p, p = v + w := ⟨_, rfl⟩
  obtain ⟨q, hq'⟩ : ∃ q, q = x + v := ⟨_, rfl⟩
  have hw' : w = p - v := by linarith
  subst hw'
  rw [← hq'] at hq hw ⊢
  have e1 : p ≤ diPush q := by linarith
  have e2 : v + (p - v) = p := by ring
  rw [e2]
  have e3 : p ≤ 7 / 5 := by
    unfold diPush at e1
    split_ifs at e1 with h
    · exact e1.trans (min_le_left _ _)
    · linarith
  have hk0 : (0 : ℝ) ≤ k := by positivity
  refine ⟨?_, by linarith, by linarith⟩
  unfold diPush at e1
  split_ifs at e1 with h
  · have e4 := e1.trans (min_le_right _ _)
    clear e1 e2 hk0
    interval_cases k <;> norm_num <;> constructor <;> linarith
  · push Not at h
    clear e2 hk0
    interval_cases k <;> norm_num <;> constructor <;> linarith

end Verif.ASIF
