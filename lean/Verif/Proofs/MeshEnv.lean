import Verif.Proofs.MeshPoly

/-! # A concrete environment meeting every assumption on the external functions -/

set_option linter.unusedSectionVars false

namespace Verif.Mesh

open Polynomial Matrix

/-- The one- and two-point LGR rules, exact Lagrange coefficients, a linear search. -/
noncomputable def lowEnv (F : Type*) [Field F] [LinearOrder F] : Env F where
  node := fun K i => if i = 0 then -1 else if K = 2 then 1 / 3 else 0
  weight := fun K i => if K = 1 then 2 else if i = 0 then 1 / 2 else 3 / 2
  basis := fun _ ts k j => (Lagrange.basis Finset.univ ts j).coeff k
  search := fun l t => if l.countP (fun a => decide (a ≤ t)) = 0 then none else some (l.countP (fun a => decide (a ≤ t)) - 1)
  growth := fun _ _ _ => 1

/-- Over the rationals. -/
noncomputable abbrev ratEnv : Env ℚ := lowEnv ℚ

variable {F : Type*} [Field F] [LinearOrder F] [IsStrictOrderedRing F]

theorem isLagrange_of_basis (env : Env F)
    (h : ∀ N ts k j, env.basis N ts k j = (Lagrange.basis Finset.univ ts j).coeff (k : ℕ)) : IsLagrange env := by
  intro N ts hts i j
  simp only [h]
  have hdeg : (Lagrange.basis Finset.univ ts j).natDegree < N + 1 := by
    have := Lagrange.natDegree_basis (s := Finset.univ) hts.injOn (Finset.mem_univ j)
    rw [this]; simp
  have he := eval_eq_sum_range' hdeg (ts i)
  rw [Finset.sum_range] at he
  rw [← he]
  split_ifs with hij
  · subst hij
    exact Lagrange.eval_basis_self hts.injOn (Finset.mem_univ _)
  · exact Lagrange.eval_basis_of_ne (Ne.symm hij) (Finset.mem_univ i)

theorem lowEnv_lagrange : IsLagrange (lowEnv F) := isLagrange_of_basis _ fun _ _ _ _ => rfl

theorem countP_search (l : List F) (t : F) (hl : l.Pairwise (· < ·)) :
    (∀ i a, l[i]? = some a → (a ≤ t ↔ i < l.countP (fun a => decide (a ≤ t)))) := by
  induction l with
  | nil => simp
  | cons x l ih =>
    rw [List.pairwise_cons] at hl
    intro i a hi
    by_cases hx : x ≤ t
    · rw [List.countP_cons_of_pos (by simpa using hx)]
      cases i with
      | zero => simp at hi; subst hi; simp [hx]
      | succ i =>
        rw [List.getElem?_cons_succ] at hi
        rw [ih hl.2 i a hi]; omega
    · have h0 : l.countP (fun a => decide (a ≤ t)) = 0 := by
        rw [List.countP_eq_zero]
        intro y hy
        have := hl.1 y hy
        simp only [decide_eq_true_eq]
        intro h; exact hx (this.le.trans h)
      rw [List.countP_cons_of_neg (by simpa using hx), h0]
      cases i with
      | zero => simp at hi; subst hi; simpa using hx
      | succ i =>
        rw [List.getElem?_cons_succ] at hi
        rw [ih hl.2 i a hi, h0]; simp

theorem lowEnv_search : IsSearch (lowEnv F) := by
  intro l t hl
  have h := countP_search l t hl
  simp only [lowEnv]
  split_ifs with h0
  · left
    refine ⟨rfl, ?_⟩
    intro a ha
    rw [List.head?_eq_getElem?] at ha
    have := (h 0 a ha).not.2 (by omega)
    exact not_le.1 this
  · right
    have hlt : l.countP (fun a => decide (a ≤ t)) - 1 < l.length := by
      have := List.countP_le_length (l := l) (p := fun a => decide (a ≤ t)); omega
    refine ⟨_, l[l.countP (fun a => decide (a ≤ t)) - 1], rfl, by simp, ?_, ?_⟩
    · exact (h _ _ (List.getElem?_eq_getElem hlt)).2 (by omega)
    · intro b hb
      exact not_le.1 ((h _ b hb).not.2 (by omega))

theorem lowEnv_growth : GrowthPos (lowEnv F) := fun _ _ _ _ _ _ => le_rfl

theorem lowEnv_lgr (K : ℕ) (h1 : 1 ≤ K) (h2 : K ≤ 1 + 1) : IsLGR (lowEnv F) K := by
  obtain rfl | rfl : K = 1 ∨ K = 2 := by omega
  · refine ⟨by simp [lowEnv], fun i j hij hj => by omega, fun i hi => ?_, fun i _ => by simp [lowEnv], ?_⟩
    · obtain rfl : i = 0 := by omega
      norm_num [lowEnv]
    · intro P hP
      rw [as_sum_range' P 2 (by omega)]
      simp [Finset.sum_range_succ, lowEnv]
      ring
  · refine ⟨by simp [lowEnv], fun i j hij hj => ?_, fun i hi => ?_, fun i _ => ?_, ?_⟩
    · obtain ⟨rfl, rfl⟩ : i = 0 ∧ j = 1 := by omega
      norm_num [lowEnv]
    · obtain rfl | rfl : i = 0 ∨ i = 1 := by omega
      all_goals norm_num [lowEnv]
    · simp only [lowEnv]; split_ifs <;> norm_num
    · intro P hP
      rw [as_sum_range' P 4 (by omega)]
      simp [Finset.sum_range_succ, lowEnv]
      ring

theorem ratEnv_lagrange : IsLagrange ratEnv := lowEnv_lagrange
theorem ratEnv_search : IsSearch ratEnv := lowEnv_search
theorem ratEnv_growth : GrowthPos ratEnv := lowEnv_growth
theorem ratEnv_lgr (K : ℕ) (h1 : 1 ≤ K) (h2 : K ≤ 1 + 1) : IsLGR ratEnv K := lowEnv_lgr K h1 h2

end Verif.Mesh
