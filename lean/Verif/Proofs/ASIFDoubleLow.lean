import Verif.Proofs.ASIFDoubleTol

/-!
# The safety filter example with the default tolerances: lower bounds along the run (for C127)
-/

namespace Verif.ASIF

theorem diPush_lip {q q' : ℝ} (h : q' ≤ q) (h' : q' ≤ 61 / 20) : diPush q' - 5 * (q - q') ≤ diPush q := by
  unfold diPush
  rw [if_pos h']
  split_ifs with h2
  · rcases min_cases (7 / 5 : ℝ) (1 / 100 + 8 / 5 * (61 / 20 - q)) with ⟨e, -⟩ | ⟨e, -⟩ <;> rw [e]
    · linarith [min_le_left (7 / 5 : ℝ) (1 / 100 + 8 / 5 * (61 / 20 - q'))]
    · linarith [min_le_right (7 / 5 : ℝ) (1 / 100 + 8 / 5 * (61 / 20 - q'))]
  · push Not at h2
    linarith [min_le_right (7 / 5 : ℝ) (1 / 100 + 8 / 5 * (61 / 20 - q'))]

theorem diPush_nonneg {q : ℝ} (h : q ≤ 61 / 20) : 1 / 100 ≤ diPush q := by
  unfold diPush
  rw [if_pos h]
  exact le_min (by norm_num) (by linarith)

theorem diPush_le (q : ℝ) : diPush q ≤ 7 / 5 := by
  unfold diPush
  split_ifs with h
  · exact min_le_left _ _
  · linarith

/-- What one call guarantees: `x`, `v` before it, `u` the input. -/
structure Pushed (x v u : ℝ) : Prop where
  push : x + v ≤ 311 / 100 → min (diPush (x + v) - v) (19 / 20) ≤ u
  low : -1 - (4 + 2 * v) / 1000 ≤ u

/-- The speed stays nonnegative and the position advances. -/
theorem Pushed.advances {x v u : ℝ} (h : Pushed x v u) (hx : x ≤ 3) (hv : 0 ≤ v) : x + 1 / 80000 ≤ x + 1 / 20 * v + (1 / 20) ^ 2 / 2 * u ∧ 0 ≤ v + 1 / 20 * u := by
  rcases le_total (x + v) (311 / 100) with h1 | h1
  · have h2 := h.push h1
    rcases le_total (x + v) (61 / 20) with h3 | h3
    · have h4 := diPush_nonneg h3
      rcases min_cases (diPush (x + v) - v) (19 / 20) with ⟨e, -⟩ | ⟨e, -⟩ <;> rw [e] at h2 <;> constructor <;> linarith
    · have h4 := diPush_lip h3 le_rfl
      have h5 := diPush_nonneg (q := 61 / 20) le_rfl
      rcases min_cases (diPush (x + v) - v) (19 / 20) with ⟨e, -⟩ | ⟨e, -⟩ <;> rw [e] at h2 <;> constructor <;> linarith
  · have h2 := h.low
    constructor <;> linarith

/-- Where the speed is not too low for `diPush`. -/
def Brisk (x v : ℝ) : Prop := 0 ≤ v ∧ (9 / 20 ≤ v ∨ 27 / 10 ≤ x + v)

theorem Brisk.push {x v u : ℝ} (hB : Brisk x v) (h : Pushed x v u) (h1 : x + v ≤ 311 / 100) : diPush (x + v) - v ≤ u := by
  refine le_trans (le_min le_rfl ?_) (h.push h1)
  rcases hB.2 with h2 | h2
  · linarith [diPush_le (x + v)]
  · have : diPush (x + v) ≤ 3 / 5 := by
      unfold diPush
      split_ifs with h3
      · exact (min_le_right _ _).trans (by linarith)
      · linarith
    linarith [hB.1]

theorem Brisk.next {x v u : ℝ} (hB : Brisk x v) (h : Pushed x v u) (hx : x ≤ 3) : Brisk (x + 1 / 20 * v + (1 / 20) ^ 2 / 2 * u) (v + 1 / 20 * u) := by
  refine ⟨(h.advances hx hB.1).2, ?_⟩
  have hv := hB.1
  rcases le_total (x + v) (311 / 100) with h1 | h1
  · have h2 := hB.push h h1
    rcases le_or_gt (27 / 10) (x + v) with h3 | h3
    · rcases le_total (1 / 2) v with h4 | h4
      · by_cases h5 : x + v ≤ 61 / 20
        · left
          linarith [diPush_nonneg h5]
        · left
          push Not at h5
          have h6 := diPush_lip h5.le le_rfl
          have h7 := diPush_nonneg (q := 61 / 20) le_rfl
          linarith
      · right
        have h6 : 57 / 100 ≤ diPush (27 / 10) := by
          unfold diPush
          rw [if_pos (by norm_num)]
          exact le_min (by norm_num) (by norm_num)
        have h7 := diPush_lip h3 (by norm_num)
        linarith
    · left
      have h4 : 9 / 20 ≤ v := by
        rcases hB.2 with h5 | h5
        · exact h5
        · exact absurd h5 (not_le.2 h3)
      have h5 : 57 / 100 ≤ diPush (x + v) := by
        unfold diPush
        rw [if_pos (by linarith)]
        exact le_min (by norm_num) (by linarith)
      linarith
  · right
    have h2 := h.low
    linarith

/-- One step of the lower bounds, in millionths: position and position plus speed. -/
def lowP (Q : ℤ) : ℤ := min 1400000 (10000 + 8 * (3050000 - Q) / 5)

def lowStep (s : ℤ × ℤ) : ℤ × ℤ :=
  ((95125 * s.1 + 4875 * s.2 + 125 * lowP s.2) / 100000, min 3050000 ((99875 * s.2 + 125 * s.1 + 5125 * lowP s.2) / 100000))

/-- The bounds hold of a state. -/
def Above (s : ℤ × ℤ) (x v : ℝ) : Prop := (s.1 : ℝ) ≤ 1000000 * x ∧ (s.2 : ℝ) ≤ 1000000 * (x + v) ∧ s.2 ≤ 3050000

theorem Above.next {s : ℤ × ℤ} {x v u : ℝ} (hA : Above s x v) (hB : Brisk x v) (h : Pushed x v u) (hx : x ≤ 3) :
    Above (lowStep s) (x + 1 / 20 * v + (1 / 20) ^ 2 / 2 * u) (v + 1 / 20 * u) := by
  obtain ⟨X, Q⟩ := s
  obtain ⟨a1, a2, a3⟩ := hA
  dsimp only at a1 a2 a3
  have hv := hB.1
  have a3' : (Q : ℝ) ≤ 3050000 := by exact_mod_cast a3
  obtain ⟨q', hq'⟩ : ∃ q' : ℝ, (Q : ℝ) = 1000000 * q' := ⟨Q / 1000000, by ring⟩
  obtain ⟨x', hx'⟩ : ∃ x' : ℝ, (X : ℝ) = 1000000 * x' := ⟨X / 1000000, by ring⟩
  have hP : (lowP Q : ℝ) ≤ 1000000 * diPush q' := by
    unfold lowP diPush
    rw [if_pos (by linarith)]
    have h1 : ((8 * (3050000 - Q) / 5 : ℤ) : ℝ) * 5 ≤ ((8 * (3050000 - Q) : ℤ) : ℝ) := by exact_mod_cast Int.ediv_mul_le _ (by norm_num)
    push_cast at h1 ⊢
    rcases min_cases (7 / 5 : ℝ) (1 / 100 + 8 / 5 * (61 / 20 - q')) with ⟨e, -⟩ | ⟨e, -⟩ <;> rw [e]
    · exact (min_le_left _ _).trans (by norm_num)
    · refine (min_le_right _ _).trans ?_
      linarith
  have d1 : (((95125 * X + 4875 * Q + 125 * lowP Q) / 100000 : ℤ) : ℝ) * 100000 ≤ 95125 * X + 4875 * Q + 125 * lowP Q := by
    exact_mod_cast Int.ediv_mul_le (95125 * X + 4875 * Q + 125 * lowP Q) (by norm_num)
  have d2 : (((99875 * Q + 125 * X + 5125 * lowP Q) / 100000 : ℤ) : ℝ) * 100000 ≤ 99875 * Q + 125 * X + 5125 * lowP Q := by
    exact_mod_cast Int.ediv_mul_le (99875 * Q + 125 * X + 5125 * lowP Q) (by norm_num)
  rw [hq', hx'] at d1 d2
  rw [hx'] at a1
  rw [hq'] at a2 a3'
  have hle := diPush_lip (q := x + v) (q' := q') (by linarith) (by linarith)
  refine ⟨?_, ?_, min_le_left _ _⟩
  · change (((95125 * X + 4875 * Q + 125 * lowP Q) / 100000 : ℤ) : ℝ) ≤ _
    rcases le_total (x + v) (311 / 100) with h1 | h1
    · have h2 := hB.push h h1
      linarith
    · have h2 := h.low
      have h3 : diPush q' - 5 * (61 / 20 - q') ≤ 1 / 100 := by
        have := diPush_lip (q := 61 / 20) (q' := q') (by linarith) (by linarith)
        have e : diPush (61 / 20) ≤ 1 / 100 := by
          unfold diPush
          rw [if_pos le_rfl]
          exact (min_le_right _ _).trans (by norm_num)
        linarith
      linarith
  · change ((min 3050000 ((99875 * Q + 125 * X + 5125 * lowP Q) / 100000) : ℤ) : ℝ) ≤ _
    push_cast
    rcases le_total (x + v) (311 / 100) with h1 | h1
    · have h2 := hB.push h h1
      refine (min_le_right _ _).trans ?_
      linarith
    · have h2 := h.low
      refine (min_le_left _ _).trans ?_
      linarith

/-- The bound for the position after `n` steps. -/
def lowRun : ℕ → ℤ → ℤ → ℤ
  | 0, X, _ => X
  | n + 1, X, Q => forceZ (lowStep (X, Q)).1 fun X' => forceZ (lowStep (X, Q)).2 fun Q' => lowRun n X' Q'

theorem lowRun_succ (n : ℕ) (X Q : ℤ) : lowRun (n + 1) X Q = lowRun n (lowStep (X, Q)).1 (lowStep (X, Q)).2 := by
  rw [lowRun, forceZ_eq, forceZ_eq]

set_option maxHeartbeats 0 in
/-- From position -5 with speed 1, as in the example. -/
theorem lowRun_example : 3000000 < lowRun 175 (-5000000) (-4000000) := by decide +kernel

end Verif.ASIF
