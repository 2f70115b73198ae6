
import Mathlib.Tactic.Linarith
import Mathlib.Data.Rat.Cast.Order
import Mathlib.Tactic.Ring


import Verif.Spec.ASIFDoubleRun

/-!
# The ideal run of examples/asif_doubleintegrator.cpp, calculated (C126)

Each ideal input is checked with multipliers of two conditions, in rational numbers and by the kernel.
-/

set_option linter.unusedSectionVars false

namespace Verif.ASIF

open Verif.ASIFSpec


section

variable {F : Type*} [Field F] [LinearOrder F] [IsStrictOrderedRing F]

/-- There is one ideal input. -/
theorem ideal_unique {x v u u' : F} (h : Ideal x v u) (h' : Ideal x v u') : u = u' := by
  obtain ⟨s, a, b⟩ := h
  obtain ⟨s', a', b'⟩ := h'
  have hm : Allowed x v ((u + u') / 2) ((s + s') / 2) := by
    refine ⟨by linarith [a.lo, a'.lo], by linarith [a.hi, a'.hi], by linarith [a.slack, a'.slack], fun k hk => ?_, fun k hk => ?_⟩
    · linarith [a.pos k hk, a'.pos k hk]
    · linarith [a.vel k hk, a'.vel k hk]
  have h1 := b _ _ hm
  have h2 := b' _ _ a
  have h3 : (u - u') ^ 2 ≤ 0 := by
    have := b' _ _ hm
    nlinarith [sq_nonneg (s - s'), sq_nonneg (u - u')]
  have h4 := pow_eq_zero_iff (two_ne_zero) |>.1 (le_antisymm h3 (sq_nonneg _))
  exact sub_eq_zero.1 h4

/-- Constant and factor of row `i` of the conditions: the position at time `i / 100`, or the speed now. -/
def rowC (x v : F) (i : ℕ) : F := if i < 50 then x + v - 3 + (i : F) / 100 * v - 3 / 10 * ((i : F) / 100) * ((i : F) / 100 - 1 / 100) else v - 3 / 2
def rowB (i : ℕ) : F := if i < 50 then (i : F) / 100 else 1

theorem rowB_eq (i : ℕ) : (rowB i : F) = if i < 50 then (i : F) / 100 else 1 := rfl

theorem allowed_row {x v u s : F} (h : Allowed x v u s) (i : ℕ) : rowC x v i + rowB i * u ≤ s := by
  unfold rowC rowB
  split_ifs with hi
  · linarith [h.pos i hi]
  · have := h.vel 0 (by norm_num)
    simp at this
    linarith

/-- A proof that `u` is ideal: two rows with multipliers. -/
structure Cert (x v u s a b : F) (i j : ℕ) : Prop where
  lo : -1 ≤ u
  hi : u ≤ 1
  slack : 0 ≤ s
  rows : ∀ k < 51, rowC x v k + rowB k * u ≤ s
  ti : rowC x v i + rowB i * u = s
  tj : rowC x v j + rowB j * u = s
  a0 : 0 ≤ a
  b0 : 0 ≤ b
  sum : a + b = 100 * s
  stat : a * rowB i + b * rowB j = 1 - u

theorem Cert.ideal {x v u s a b : F} {i j : ℕ} (h : Cert x v u s a b i j) : Ideal x v u := by
  have hA : Allowed x v u s := by
    refine ⟨h.lo, h.hi, h.slack, fun k hk => ?_, fun k hk => ?_⟩
    · have := h.rows k (by omega)
      unfold rowC rowB at this
      rw [if_pos hk, if_pos hk] at this
      linarith
    · have := h.rows 50 (by norm_num)
      unfold rowC rowB at this
      rw [if_neg (by norm_num), if_neg (by norm_num)] at this
      have hk' : (0 : F) ≤ k := Nat.cast_nonneg k
      linarith
  refine ⟨s, hA, fun w t ht => ?_⟩
  have h1 : rowB i * (w - u) ≤ t - s := by linarith [allowed_row ht i, h.ti]
  have h2 : rowB j * (w - u) ≤ t - s := by linarith [allowed_row ht j, h.tj]
  have h3 := mul_le_mul_of_nonneg_left h1 h.a0
  have h4 := mul_le_mul_of_nonneg_left h2 h.b0
  have h5 : (1 - u) * (w - u) ≤ 100 * s * (t - s) := by
    rw [← h.stat, ← h.sum]
    linarith
  nlinarith [sq_nonneg (w - u), sq_nonneg (t - s)]

theorem rowC_cast (x v : ℚ) (i : ℕ) : ((rowC x v i : ℚ) : F) = rowC (x : F) v i := by
  unfold rowC
  split_ifs <;> push_cast <;> rfl

theorem rowB_cast (i : ℕ) : ((rowB i : ℚ) : F) = rowB i := by
  unfold rowB
  split_ifs <;> push_cast <;> rfl

theorem Cert.cast {x v u s a b : ℚ} {i j : ℕ} (h : Cert x v u s a b i j) : Cert (x : F) v u s a b i j where
  lo := by exact_mod_cast h.lo
  hi := by exact_mod_cast h.hi
  slack := by exact_mod_cast h.slack
  rows k hk := by
    rw [← rowC_cast, ← rowB_cast]
    exact_mod_cast h.rows k hk
  ti := by
    rw [← rowC_cast, ← rowB_cast]
    exact_mod_cast h.ti
  tj := by
    rw [← rowC_cast, ← rowB_cast]
    exact_mod_cast h.tj
  a0 := by exact_mod_cast h.a0
  b0 := by exact_mod_cast h.b0
  sum := by exact_mod_cast h.sum
  stat := by
    rw [← rowB_cast i, ← rowB_cast j]
    exact_mod_cast h.stat

end

/-! ## The calculation -/

/-- `f n`, with `n` reduced to a numeral first (the kernel does not evaluate arguments by itself). -/
def forceN {α : Type} (n : ℕ) (f : ℕ → α) : α := Nat.rec (f 0) (fun m _ => f (m + 1)) n

def forceZ {α : Type} : ℤ → (ℤ → α) → α
  | .ofNat n, f => forceN n fun m => f (.ofNat m)
  | .negSucc n, f => forceN n fun m => f (.negSucc m)

def forceQ {α : Type} (q : ℚ) (f : ℚ → α) : α := forceZ q.num fun n => forceN q.den fun d => f (mkRat n d)

theorem forceN_eq {α : Type} (n : ℕ) (f : ℕ → α) : forceN n f = f n := by cases n <;> rfl

theorem forceZ_eq {α : Type} (n : ℤ) (f : ℤ → α) : forceZ n f = f n := by
  cases n with
  | ofNat n => exact forceN_eq n fun m => f (.ofNat m)
  | negSucc n => exact forceN_eq n fun m => f (.negSucc m)

theorem forceQ_eq {α : Type} (q : ℚ) (f : ℚ → α) : forceQ q f = f q := by
  unfold forceQ
  rw [forceZ_eq, forceN_eq, Rat.mkRat_self]

/-- The input at which the rows `i` and `j` meet, or the best one for row `i` alone. -/
def tryU (x v : ℚ) (i j : ℕ) : ℚ :=
  if i = j then (1 - 100 * rowC x v i * rowB i) / (1 + 100 * rowB i ^ 2) else (rowC x v j - rowC x v i) / (rowB i - rowB j)

def tryB (u s : ℚ) (i j : ℕ) : ℚ := if i = j then 0 else (1 - u - 100 * s * rowB i) / (rowB j - rowB i)

/-- One step, if the two rows give the ideal input. -/
def simStep (x v : ℚ) (i j : ℕ) : Option (ℚ × ℚ) :=
  forceQ (tryU x v i j) fun u => forceQ (rowC x v i + rowB i * u) fun s => forceQ (tryB u s i j) fun b =>
  if -1 ≤ u ∧ u ≤ 1 ∧ 0 ≤ s ∧ (∀ k < 51, rowC x v k + rowB k * u ≤ s) ∧ rowC x v j + rowB j * u = s ∧ 0 ≤ 100 * s - b ∧ 0 ≤ b ∧
      (100 * s - b) * rowB i + b * rowB j = 1 - u then
    some (x + v / 20 + u / 800, v + u / 20)
  else none

def sim : ℚ → ℚ → List (ℕ × ℕ) → Option (List (ℚ × ℚ))
  | _, _, [] => some []
  | x, v, (i, j) :: l => (simStep x v i j).bind fun r => forceQ r.1 fun x' => forceQ r.2 fun v' => (sim x' v' l).map fun t => (x', v') :: t

theorem simStep_cert {x v : ℚ} {i j : ℕ} {r : ℚ × ℚ} (h : simStep x v i j = some r) :
    ∃ u s a b, Cert x v u s a b i j ∧ r = (x + v / 20 + u / 800, v + u / 20) := by
  unfold simStep at h
  simp only [forceQ_eq] at h
  generalize tryU x v i j = u at h
  generalize tryB u (rowC x v i + rowB i * u) i j = b at h
  by_cases c : -1 ≤ u ∧ u ≤ 1 ∧ 0 ≤ rowC x v i + rowB i * u ∧ (∀ k < 51, rowC x v k + rowB k * u ≤ rowC x v i + rowB i * u) ∧
      rowC x v j + rowB j * u = rowC x v i + rowB i * u ∧ 0 ≤ 100 * (rowC x v i + rowB i * u) - b ∧ 0 ≤ b ∧
      (100 * (rowC x v i + rowB i * u) - b) * rowB i + b * rowB j = 1 - u
  · rw [if_pos c] at h
    obtain ⟨c1, c2, c3, c4, c5, c6, c7, c8⟩ := c
    exact ⟨_, _, _, _, ⟨c1, c2, c3, c4, rfl, c5, c6, c7, by ring, c8⟩, (Option.some.inj h).symm⟩
  · rw [if_neg c] at h
    cases h

section

variable {F : Type*} [Field F] [LinearOrder F] [IsStrictOrderedRing F]

/-- The state as it appears in the program. -/
def toState (r : ℚ × ℚ) : Fin 2 → F := ![(r.1 : F), (r.2 : F)]

theorem sim_ideal (l : List (ℕ × ℕ)) (x v : ℚ) (t : List (ℚ × ℚ)) (h : sim x v l = some t) : IdealRun (toState (x, v) : Fin 2 → F) (t.map toState) := by
  induction l generalizing x v t with
  | nil => obtain rfl := Option.some.inj h; trivial
  | cons p l ih =>
    obtain ⟨i, j⟩ := p
    rw [sim, Option.bind_eq_some_iff] at h
    obtain ⟨r, h1, h2⟩ := h
    rw [forceQ_eq, forceQ_eq, Option.map_eq_some_iff] at h2
    obtain ⟨t', h3, rfl⟩ := h2
    obtain ⟨u, s, a, b, hc, rfl⟩ := simStep_cert h1
    refine ⟨⟨(u : F), hc.cast.ideal, ?_⟩, ih _ _ _ h3⟩
    unfold toState
    dsimp only
    push_cast
    rfl

end

/-- The rows that are active in the run of the example. -/
def activeRows : List (ℕ × ℕ) :=
  List.replicate 84 (50, 50) ++ List.replicate 17 (49, 49) ++ [(45, 46)] ++ [(42, 42)] ++ [(38, 39)] ++ [(35, 35)] ++ [(32, 33)] ++ [(29, 30)] ++ [(27, 28)] ++ [(25, 26)]
  ++ [(23, 24)] ++ [(22, 22)] ++ [(20, 21)] ++ [(19, 20)] ++ [(18, 19)] ++ [(17, 18)] ++ [(16, 17)] ++ [(15, 16)] ++ List.replicate 2 (14, 15) ++ [(13, 14)] ++ [(13, 13)]
  ++ List.replicate 2 (12, 13) ++ List.replicate 2 (11, 12) ++ List.replicate 3 (10, 11) ++ [(10, 10)] ++ List.replicate 3 (9, 10) ++ [(9, 9)] ++ List.replicate 5 (8, 9) ++
  List.replicate 7 (7, 8) ++ List.replicate 11 (6, 7) ++ List.replicate 19 (5, 6) ++ [(5, 5)] ++ List.replicate 24 (4, 5)

set_option maxHeartbeats 0 in
/-- The states of the run, calculated; at turn 81 the speed exceeds 3 / 2, and at the end the position exceeds 3 by 1 / 5. -/

theorem sim_run : ∃ t, sim (-5) 1 activeRows = some t ∧ t.length = 200 ∧ (∃ r, t[80]? = some r ∧ 3 / 2 < r.2) ∧ (∀ r ∈ t.drop 147, 3 < r.1) ∧ ∃ r, t[199]? = some r ∧ 16 / 5 < r.1 := by
  have h : (sim (-5) 1 activeRows).any (fun t => decide (t.length = 200) && (t[80]?).any (fun r => decide (3 / 2 < r.2)) && (t.drop 147).all (fun r => decide (3 < r.1)) &&
      (t[199]?).any (fun r => decide (16 / 5 < r.1))) = true := by decide +kernel
  cases ht : sim (-5) 1 activeRows with
  | none => rw [ht] at h; cases h
  | some t =>
    rw [ht] at h
    simp only [Option.any_some, Bool.and_eq_true, decide_eq_true_eq, List.all_eq_true] at h
    obtain ⟨⟨⟨h1, h2⟩, h3⟩, h4⟩ := h
    refine ⟨t, rfl, h1, ?_, h3, ?_⟩
    · cases hr : t[80]? with
      | none => rw [hr] at h2; cases h2
      | some r => rw [hr] at h2; exact ⟨r, rfl, by simpa using h2⟩
    · cases hr : t[199]? with
      | none => rw [hr] at h4; cases h4
      | some r => rw [hr] at h4; exact ⟨r, rfl, by simpa using h4⟩

end Verif.ASIF
