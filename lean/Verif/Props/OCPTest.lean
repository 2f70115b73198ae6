import Verif.Model.OCPTest
import Mathlib.Algebra.Order.BigOperators.Group.Finset
import Mathlib.Algebra.Order.AbsoluteValue.Basic
import Mathlib.Algebra.Order.Ring.Rat
import Mathlib.Tactic.Linarith
import Mathlib.Tactic.NormNum

/-! # The derivative test of a problem (C87) -/

namespace Verif.OCPTest

variable {F X U : Type*} {nq : ℕ} [Field F] [LinearOrder F] [IsStrictOrderedRing F]

/-- `a` and `b` have the same size and their entries differ by at most `tol`. -/
def Agree (tol : F) (a b : DMat F) : Prop :=
  a.rows = b.rows ∧ a.cols = b.cols ∧ ∀ i < a.rows, ∀ j < a.cols, |a.val i j - b.val i j| ≤ tol

/-- The same numbers. -/
def Same (a b : DMat F) : Prop := a.rows = b.rows ∧ a.cols = b.cols ∧ ∀ i < a.rows, ∀ j < a.cols, a.val i j = b.val i j

/-- `R` holds between every derivative that the problem provides and the reference, at the points of the trial. -/
def AllDerivs (R : DMat F → DMat F → Prop) (p : Problem F X U nq) (z : Trial F X U nq) : Prop :=
  (∀ fn ∈ [p.theta, p.ce], (∀ d ∈ fn.jac, R (d z.e) (fn.refJac z.e)) ∧ ∀ d ∈ fn.hess, R (d z.e) (fn.refHess z.e)) ∧
  ∀ fn ∈ [p.f, p.g, p.cr], (∀ d ∈ fn.jac, R (d z.r) (fn.refJac z.r)) ∧ ∀ d ∈ fn.hess, R (d z.r) (fn.refHess z.r)

theorem check_iff {A : Type*} (eps : F) (d : Option (A → DMat F)) (ref : A → DMat F) (a : A) (s : Bool) :
    check eps d ref a s = true ↔ s = true ∧ ∀ d' ∈ d, cmp eps (d' a) (ref a) = true := by
  unfold check
  cases d with
  | none => simp
  | some d =>
    by_cases h : cmp eps (d a) (ref a) = true <;> simp [h]

theorem checkFun_iff {A : Type*} (eps : F) (fn : Fun A F) (a : A) (s : Bool) :
    checkFun eps fn a s = true ↔ s = true ∧ (∀ d ∈ fn.jac, cmp eps (d a) (fn.refJac a) = true) ∧ ∀ d ∈ fn.hess, cmp eps (d a) (fn.refHess a) = true := by
  unfold checkFun
  rw [check_iff, check_iff, and_assoc]

theorem trial_iff (eps : F) (p : Problem F X U nq) (s : Bool) (z : Trial F X U nq) :
    trial eps p s z = true ↔ s = true ∧ AllDerivs (fun a b => cmp eps a b = true) p z := by
  unfold trial AllDerivs
  simp only [checkFun_iff, List.mem_cons, List.not_mem_nil, or_false, forall_eq_or_imp, forall_eq]
  tauto

/-- The result, whatever the problem and the points: every comparison of every trial succeeded. -/
theorem test_iff (eps : F) (p : Problem F X U nq) (zs : List (Trial F X U nq)) :
    testDerivatives eps p zs = true ↔ ∀ z ∈ zs, AllDerivs (fun a b => cmp eps a b = true) p z := by
  have : ∀ s, zs.foldl (trial eps p) s = true ↔ s = true ∧ ∀ z ∈ zs, AllDerivs (fun a b => cmp eps a b = true) p z := by
    induction zs with
    | nil => simp
    | cons z zs ih =>
      intro s
      rw [List.foldl_cons, ih, trial_iff, List.forall_mem_cons, and_assoc]
  rw [testDerivatives, this]
  simp

theorem entry_sq_le (m : DMat F) (i j : ℕ) (hi : i < m.rows) (hj : j < m.cols) : m.val i j * m.val i j ≤ abs2 m := by
  unfold abs2
  calc m.val i j * m.val i j ≤ ∑ j ∈ Finset.range m.cols, m.val i j * m.val i j :=
        Finset.single_le_sum (f := fun j => m.val i j * m.val i j) (fun j _ => mul_self_nonneg _) (Finset.mem_range.2 hj)
    _ ≤ _ := Finset.single_le_sum (f := fun i => ∑ j ∈ Finset.range m.cols, m.val i j * m.val i j)
        (fun i _ => Finset.sum_nonneg fun j _ => mul_self_nonneg _) (Finset.mem_range.2 hi)

theorem abs2_nonneg (m : DMat F) : 0 ≤ abs2 m := Finset.sum_nonneg fun _ _ => Finset.sum_nonneg fun _ _ => mul_self_nonneg _

/-- What a successful comparison means: equal sizes, and either every entry differs by less than `eps`, or the Frobenius norm of the
difference is at most `1e-4` times that of either matrix. -/
theorem cmp_iff (eps : F) (a b : DMat F) : cmp eps a b = true ↔ a.rows = b.rows ∧ a.cols = b.cols ∧
    ((∀ i < a.rows, ∀ j < a.cols, |a.val i j - b.val i j| < eps) ∨
      (10000 ^ 2 * abs2 (a.sub b) ≤ abs2 a ∧ 10000 ^ 2 * abs2 (a.sub b) ≤ abs2 b)) := by
  unfold cmp
  simp only [Bool.and_eq_true, Bool.or_eq_true, decide_eq_true_eq]
  have key : ∀ s x y : F, s ≤ 1 / 10000 * (1 / 10000) * min x y ↔ 10000 ^ 2 * s ≤ x ∧ 10000 ^ 2 * s ≤ y := by
    intro s x y
    rw [← le_min_iff]
    constructor <;> intro h <;> linarith
  have h1 : isApprox (1 / 10000) a b ↔ _ := key (abs2 (a.sub b)) (abs2 a) (abs2 b)
  have h2 : maxCoeffLt eps (a.sub b) ↔ ∀ i < a.rows, ∀ j < a.cols, |a.val i j - b.val i j| < eps := by
    unfold maxCoeffLt
    simp only [Finset.mem_range]
    rfl
  rw [h1, h2]
  tauto

/-- **C87, no false alarms.** A problem whose derivatives are those of the reference passes, whatever `eps`, the number of trials and the
points. -/
theorem test_exact_passes (eps : F) (p : Problem F X U nq) (zs : List (Trial F X U nq)) (h : ∀ z ∈ zs, AllDerivs Same p z) :
    testDerivatives eps p zs = true := by
  rw [test_iff]
  have key : ∀ a b : DMat F, Same a b → cmp eps a b = true := by
    rintro a b ⟨h1, h2, h3⟩
    rw [cmp_iff]
    refine ⟨h1, h2, .inr ?_⟩
    have : abs2 (a.sub b) = 0 := by
      unfold abs2
      refine Finset.sum_eq_zero fun i hi => Finset.sum_eq_zero fun j hj => ?_
      simp only [DMat.sub, Finset.mem_range] at hi hj ⊢
      rw [h3 i hi j hj, sub_self, mul_zero]
    rw [this, mul_zero]
    exact ⟨abs2_nonneg a, abs2_nonneg b⟩
  intro z hz
  obtain ⟨h1, h2⟩ := h z hz
  exact ⟨fun fn hf => ⟨fun d hd => key _ _ ((h1 fn hf).1 d hd), fun d hd => key _ _ ((h1 fn hf).2 d hd)⟩,
    fun fn hf => ⟨fun d hd => key _ _ ((h2 fn hf).1 d hd), fun d hd => key _ _ ((h2 fn hf).2 d hd)⟩⟩

/-- **C87, what holds.** FULL CLAIM: if the test succeeds, then at the points of every trial every derivative that the problem provides agrees
with the reference to within `eps` in every entry. Proved: so it does if the numbers of the reference are at most `M` in Frobenius norm and
`eps` is at least `1e-4 M`. Missing: smaller `eps`, for which it is false, see `test_eps_wrong`. -/
theorem test_detects_partial (eps M : F) (hM : 0 ≤ M) (heps : M / 10000 ≤ eps) (p : Problem F X U nq) (zs : List (Trial F X U nq))
    (hs : ∀ z ∈ zs, AllDerivs (fun _ b => abs2 b ≤ M ^ 2) p z) (h : testDerivatives eps p zs = true) : ∀ z ∈ zs, AllDerivs (Agree eps) p z := by
  rw [test_iff] at h
  have key : ∀ a b : DMat F, cmp eps a b = true → abs2 b ≤ M ^ 2 → Agree eps a b := by
    intro a b hc hb
    obtain ⟨h1, h2, h3⟩ := (cmp_iff eps a b).mp hc
    refine ⟨h1, h2, fun i hi j hj => ?_⟩
    rcases h3 with h3 | ⟨-, h3⟩
    · exact (h3 i hi j hj).le
    · have e := entry_sq_le (a.sub b) i j hi hj
      have : (a.val i j - b.val i j) ^ 2 ≤ (M / 10000) ^ 2 := by
        have e' : (a.val i j - b.val i j) ^ 2 ≤ abs2 (a.sub b) := by rw [pow_two]; exact e
        rw [div_pow]
        rw [le_div_iff₀ (by norm_num)]
        nlinarith
      exact (abs_le_of_sq_le_sq this (by positivity)).trans heps
  intro z hz
  obtain ⟨h1, h2⟩ := h z hz
  obtain ⟨s1, s2⟩ := hs z hz
  exact ⟨fun fn hf => ⟨fun d hd => key _ _ ((h1 fn hf).1 d hd) ((s1 fn hf).1 d hd), fun d hd => key _ _ ((h1 fn hf).2 d hd) ((s1 fn hf).2 d hd)⟩,
    fun fn hf => ⟨fun d hd => key _ _ ((h2 fn hf).1 d hd) ((s2 fn hf).1 d hd), fun d hd => key _ _ ((h2 fn hf).2 d hd) ((s2 fn hf).2 d hd)⟩⟩

/-- A derivative that is off by more than both tolerances at a point of a trial is found. -/
theorem test_fails (eps : F) (p : Problem F X U nq) (zs : List (Trial F X U nq)) (z : Trial F X U nq) (hz : z ∈ zs)
    (h : ¬ AllDerivs (fun a b => a.rows = b.rows ∧ a.cols = b.cols ∧ ((∀ i < a.rows, ∀ j < a.cols, |a.val i j - b.val i j| < eps) ∨
      10000 ^ 2 * abs2 (a.sub b) ≤ abs2 b)) p z) : testDerivatives eps p zs = false := by
  rw [← Bool.not_eq_true, test_iff]
  intro hall
  obtain ⟨h1, h2⟩ := hall z hz
  have key : ∀ a b : DMat F, cmp eps a b = true → a.rows = b.rows ∧ a.cols = b.cols ∧ ((∀ i < a.rows, ∀ j < a.cols, |a.val i j - b.val i j| < eps) ∨
      10000 ^ 2 * abs2 (a.sub b) ≤ abs2 b) := fun a b hc => by
    obtain ⟨g1, g2, g3⟩ := (cmp_iff eps a b).mp hc
    exact ⟨g1, g2, g3.imp id And.right⟩
  exact h ⟨fun fn hf => ⟨fun d hd => key _ _ ((h1 fn hf).1 d hd), fun d hd => key _ _ ((h1 fn hf).2 d hd)⟩,
    fun fn hf => ⟨fun d hd => key _ _ ((h2 fn hf).1 d hd), fun d hd => key _ _ ((h2 fn hf).2 d hd)⟩⟩

/-- A problem without derivatives passes, and so does every problem without trials. -/
theorem test_nothing (eps : F) (p : Problem F X U nq) :
    testDerivatives eps p [] = true ∧
    ((∀ fn ∈ [p.theta, p.ce], fn.jac = none ∧ fn.hess = none) → (∀ fn ∈ [p.f, p.g, p.cr], fn.jac = none ∧ fn.hess = none) →
      ∀ zs, testDerivatives eps p zs = true) := by
  refine ⟨rfl, fun h1 h2 zs => ?_⟩
  rw [test_iff]
  refine fun z _ => ⟨fun fn hf => ⟨fun d hd => ?_, fun d hd => ?_⟩, fun fn hf => ⟨fun d hd => ?_, fun d hd => ?_⟩⟩
  · rw [(h1 fn hf).1] at hd; cases hd
  · rw [(h1 fn hf).2] at hd; cases hd
  · rw [(h2 fn hf).1] at hd; cases hd
  · rw [(h2 fn hf).2] at hd; cases hd

/-! ### A problem with one wrong derivative -/

/-- A 1 by 1 matrix. -/
def one (c : ℚ) : DMat ℚ := ⟨1, 1, fun _ _ => c⟩

/-- A function with derivative 10000, given as `c`; nothing else is provided. -/
def demo (c : ℚ) : Problem ℚ ℚ ℚ 1 :=
  let no {A : Type} : Fun A ℚ := ⟨none, none, fun _ => one 0, fun _ => one 0⟩
  ⟨no, ⟨some fun _ => one c, none, fun _ => one 10000, fun _ => one 0⟩, no, no, no⟩

def pt : Trial ℚ ℚ ℚ 1 := ⟨⟨1, 0, 0, 0⟩, ⟨1, 0, 0⟩⟩

theorem demo_all (R : DMat ℚ → DMat ℚ → Prop) (c : ℚ) : AllDerivs R (demo c) pt ↔ R (one c) (one 10000) := by
  simp [AllDerivs, demo]

/-- **C87 is false of the code**: with `eps = 1e-6` a derivative that is off by `1` passes, since it is within the fixed relative
tolerance. -/
theorem test_eps_wrong : testDerivatives (1 / 1000000) (demo 10001) [pt] = true ∧ ¬ AllDerivs (Agree (1 / 2 : ℚ)) (demo 10001) pt := by
  constructor
  · rw [test_iff]
    intro z hz
    obtain rfl := List.mem_singleton.1 hz
    rw [demo_all, cmp_iff]
    refine ⟨rfl, rfl, .inr ?_⟩
    norm_num [abs2, DMat.sub, one]
  · rw [demo_all]
    rintro ⟨-, -, h⟩
    have := h 0 (by simp [one]) 0 (by simp [one])
    norm_num [one] at this

/-- A larger mistake is found, the right derivative passes. -/
example : testDerivatives (1 / 1000000) (demo 10002) [pt] = false ∧ testDerivatives (1 / 1000000) (demo 10000) [pt] = true := by
  refine ⟨test_fails _ _ _ pt (List.mem_singleton.2 rfl) ?_, test_exact_passes _ _ _ fun z hz => ?_⟩
  · rw [demo_all]
    rintro ⟨-, -, h | h⟩
    · have := h 0 (by simp [one]) 0 (by simp [one])
      norm_num [one] at this
    · norm_num [abs2, DMat.sub, one] at h
  · obtain rfl := List.mem_singleton.1 hz
    rw [demo_all]
    exact ⟨rfl, rfl, fun _ _ _ _ => rfl⟩

/-- The hypotheses of `test_detects_partial`. -/
example : (0 : ℚ) ≤ 10000 ∧ (10000 / 10000 : ℚ) ≤ 1 ∧ AllDerivs (fun _ b : DMat ℚ => abs2 b ≤ 10000 ^ 2) (demo 10001) pt ∧
    testDerivatives 1 (demo 10001) [pt] = true := by
  refine ⟨by norm_num, by norm_num, ?_, ?_⟩
  · rw [demo_all]
    norm_num [abs2, one]
  · rw [test_iff]
    intro z hz
    obtain rfl := List.mem_singleton.1 hz
    rw [demo_all, cmp_iff]
    refine ⟨rfl, rfl, .inr ?_⟩
    norm_num [abs2, DMat.sub, one]

end Verif.OCPTest
