import Verif.Spec.QP
import Mathlib.Tactic.Linarith
import Mathlib.Tactic.FieldSimp
import Mathlib.Tactic.Ring
import Mathlib.Tactic.LinearCombination
import Mathlib.Logic.Function.Iterate
import Mathlib.Algebra.BigOperators.Field

/-! # QP solver: norms, projections, the main loop -/

set_option linter.unusedSectionVars false

namespace Verif.QP

open Matrix Verif.QPSpec

variable {F : Type*} [Field F] [LinearOrder F] [IsStrictOrderedRing F] {n m : ℕ}

/-! ### Norm -/

private theorem foldr_isMax {k : ℕ} (v : Fin k → F) (L : List (Fin k)) :
    0 ≤ L.foldr (fun i a => max |v i| a) 0 ∧ (∀ i ∈ L, |v i| ≤ L.foldr (fun i a => max |v i| a) 0) ∧
      (L.foldr (fun i a => max |v i| a) 0 = 0 ∨ ∃ i ∈ L, L.foldr (fun i a => max |v i| a) 0 = |v i|) := by
  induction L with
  | nil => simp
  | cons j L ih =>
    obtain ⟨h0, h1, h2⟩ := ih
    refine ⟨le_trans h0 (le_max_right _ _), ?_, ?_⟩
    · intro i hi
      rcases List.mem_cons.1 hi with rfl | hi
      · exact le_max_left _ _
      · exact le_trans (h1 i hi) (le_max_right _ _)
    · simp only [List.foldr_cons]
      rcases max_choice |v j| (L.foldr (fun i a => max |v i| a) 0) with h | h
      · exact Or.inr ⟨j, by simp, h⟩
      · rcases h2 with h2 | ⟨i, hi, h2⟩
        · exact Or.inl (by rw [h, h2])
        · exact Or.inr ⟨i, by simp [hi], by rw [h, h2]⟩

theorem norm_isMaxNorm {k : ℕ} (v : Fin k → F) : IsMaxNorm v (norm v) := by
  obtain ⟨h0, h1, h2⟩ := foldr_isMax v (List.finRange k)
  exact ⟨h0, fun i => h1 i (List.mem_finRange i), h2.imp id (fun ⟨i, _, h⟩ => ⟨i, h⟩)⟩

theorem norm_nonneg {k : ℕ} (v : Fin k → F) : 0 ≤ norm v := (norm_isMaxNorm v).1
theorem le_norm {k : ℕ} (v : Fin k → F) (i : Fin k) : |v i| ≤ norm v := (norm_isMaxNorm v).2.1 i

theorem norm_le {k : ℕ} {v : Fin k → F} {r : F} (hr : 0 ≤ r) (h : ∀ i, |v i| ≤ r) : norm v ≤ r := by
  rcases (norm_isMaxNorm v).2.2 with h0 | ⟨i, hi⟩
  · rw [h0]; exact hr
  · rw [hi]; exact h i

theorem norm_zero {k : ℕ} : norm (0 : Fin k → F) = 0 :=
  le_antisymm (norm_le le_rfl (by simp)) (norm_nonneg _)

theorem norm_eq_zero {k : ℕ} {v : Fin k → F} (h : norm v = 0) : v = 0 := by
  funext i
  have := le_norm v i
  rw [h] at this
  exact abs_eq_zero.1 (le_antisymm this (abs_nonneg _))

theorem isMaxNorm_unique {k : ℕ} {v : Fin k → F} {r r' : F} (h : IsMaxNorm v r) (h' : IsMaxNorm v r') : r = r' := by
  apply le_antisymm
  · rcases h.2.2 with h0 | ⟨i, hi⟩
    · rw [h0]; exact h'.1
    · rw [hi]; exact h'.2.1 i
  · rcases h'.2.2 with h0 | ⟨i, hi⟩
    · rw [h0]; exact h.1
    · rw [hi]; exact h.2.1 i

/-! ### Bounds and the projection -/

/-- The row is not trivially empty. -/
def RowOk (l u : Ext F) : Prop := emptyRow l u = false

theorem precheck_none {p : Pbm F n m} (h : precheck p = none) (i : Fin m) : RowOk (p.l i) (p.u i) := by
  unfold precheck at h
  split at h
  · cases h
  · rename_i h'
    unfold RowOk
    by_contra hc
    exact h' (List.any_eq_true.2 ⟨i, List.mem_finRange i, by simpa using hc⟩)

/-- Projection on a scaled row: the unscaled result lies in the bounds and the difference is complementary. -/
theorem proj_row {l u : Ext F} (h : RowOk l u) {s : F} (hs : 0 < s) (v : F) :
    let z := minE (maxE v (l.scale s)) (u.scale s)
    lower l (s⁻¹ * z) ∧ upper u (s⁻¹ * z) ∧ (0 < v - z → u = .fin (s⁻¹ * z)) ∧ (v - z < 0 → l = .fin (s⁻¹ * z)) := by
  have hs' : s ≠ 0 := hs.ne'
  intro z
  cases l with
  | pos => simp [RowOk, emptyRow] at h
  | neg =>
    cases u with
    | neg => simp [RowOk, emptyRow] at h
    | pos => simp [z, lower, upper, maxE, minE, Ext.scale]
    | fin b =>
      simp only [z, lower, upper, maxE, minE, Ext.scale, true_and]
      rcases min_choice v (s * b) with h1 | h1 <;> rw [h1]
      · refine ⟨?_, by simp, by simp⟩
        rw [inv_mul_le_iff₀ hs]; exact min_eq_left_iff.1 h1
      · refine ⟨by rw [inv_mul_cancel_left₀ hs'], fun _ => by rw [inv_mul_cancel_left₀ hs'], fun h2 => ?_⟩
        have := min_eq_right_iff.1 h1
        linarith
  | fin a =>
    cases u with
    | neg => simp [RowOk, emptyRow] at h
    | pos =>
      simp only [z, lower, upper, maxE, minE, Ext.scale, true_and]
      rcases max_choice v (s * a) with h1 | h1 <;> rw [h1]
      · refine ⟨?_, by simp, by simp⟩
        rw [le_inv_mul_iff₀ hs]; exact max_eq_left_iff.1 h1
      · refine ⟨by rw [inv_mul_cancel_left₀ hs'], fun h2 => ?_, fun _ => by rw [inv_mul_cancel_left₀ hs']⟩
        have := max_eq_right_iff.1 h1
        linarith
    | fin b =>
      have hab : a ≤ b := by
        simp only [RowOk, emptyRow, decide_eq_false_iff_not, not_lt] at h
        linarith
      have hsab : s * a ≤ s * b := mul_le_mul_of_nonneg_left hab hs.le
      simp only [z, lower, upper, maxE, minE, Ext.scale]
      rcases min_choice (max v (s * a)) (s * b) with h1 | h1 <;> rw [h1]
      · have h1' := min_eq_left_iff.1 h1
        rcases max_choice v (s * a) with h2 | h2 <;> rw [h2] at h1' ⊢
        · have h2' := max_eq_left_iff.1 h2
          refine ⟨?_, ?_, by simp, by simp⟩
          · rw [le_inv_mul_iff₀ hs]; exact h2'
          · rw [inv_mul_le_iff₀ hs]; exact h1'
        · have h2' := max_eq_right_iff.1 h2
          rw [inv_mul_cancel_left₀ hs']
          refine ⟨le_rfl, hab, fun h3 => by linarith, fun _ => rfl⟩
      · have h1' := min_eq_right_iff.1 h1
        rw [inv_mul_cancel_left₀ hs']
        refine ⟨hab, le_rfl, fun _ => rfl, fun h3 => ?_⟩
        rcases max_choice v (s * a) with h2 | h2 <;> rw [h2] at h1'
        · linarith
        · have : s * a = s * b := le_antisymm hsab h1'
          have : a = b := mul_left_cancel₀ hs' this
          rw [this]

/-! ### Positivity of the step sizes -/

theorem rhoOf_pos {rb sy : F} (h : 0 < rb) (l u : Ext F) : 0 < rhoOf rb sy l u := by
  unfold rhoOf
  split
  · norm_num
  · split
    · linarith
    · exact h
  · exact h

/-! ### The step -/

section Step

variable {alpha sigma : F} {p : Pbm F n m} {s : Scaling F n m} {rho : Fin m → F}
  {slv : (Fin n ⊕ Fin m → F) → (Fin n ⊕ Fin m → F)}

/-- After one step the auxiliary variable is in the box and the dual is complementary to it. -/
theorem step_box (hrow : ∀ i, RowOk (p.l i) (p.u i)) (hs : ∀ i, 0 < s.sy i) (hc : 0 < s.c) (hr : ∀ i, 0 < rho i)
    (it : It F n m) :
    InBox p (s.unZ (step alpha sigma p s rho slv it).z) ∧
    Complementary p (s.unZ (step alpha sigma p s rho slv it).z) (s.unY (step alpha sigma p s rho slv it).y) := by
  have key : ∀ i, ∃ v, (step alpha sigma p s rho slv it).z i = minE (maxE v ((p.l i).scale (s.sy i))) ((p.u i).scale (s.sy i))
      ∧ (step alpha sigma p s rho slv it).y i = rho i * (v - (step alpha sigma p s rho slv it).z i) := by
    intro i
    refine ⟨_, rfl, ?_⟩
    have hri := (hr i).ne'
    simp only [step]
    generalize minE (F := F) _ _ = w
    field_simp
    ring
  constructor
  · intro i
    obtain ⟨v, hz, -⟩ := key i
    have := proj_row (hrow i) (hs i) v
    simp only [Scaling.unZ]
    rw [hz]
    exact ⟨this.1, this.2.1⟩
  · intro i
    obtain ⟨v, hz, hy⟩ := key i
    have h := proj_row (hrow i) (hs i) v
    simp only [Scaling.unZ, Scaling.unY]
    rw [hy]
    rw [← hz] at h
    generalize (step alpha sigma p s rho slv it).z i = z at *
    have e : s.sy i * (rho i * (v - z)) / s.c = (s.sy i * rho i / s.c) * (v - z) := by ring
    have hpos : 0 < s.sy i * rho i / s.c := div_pos (mul_pos (hs i) (hr i)) hc
    rw [e]
    constructor
    · intro h1
      exact h.2.2.1 (pos_of_mul_pos_right h1 hpos.le)
    · intro h1
      refine h.2.2.2 ?_
      by_contra hcon
      rw [not_lt] at hcon
      have := mul_nonneg hpos.le hcon
      linarith

end Step

/-! ### The main loop -/

/-- The verdict of the stopping check in iteration `i`. -/
def verdict (env : Env F n) (prm : Params F) (p : Pbm F n m) (s : Scaling F n m) (t : ℕ → It F n m) (i : ℕ) : Option Status :=
  if i % prm.stopCheckIter = 1 then check env prm p s i (t i) (t (i + 1)) else none

theorem loop_ok {env : Env F n} {prm : Params F} {p : Pbm F n m} {s : Scaling F n m} {next : It F n m → It F n m}
    {t : ℕ → It F n m} (ht : ∀ i, t (i + 1) = next (t i)) {fuel iter : ℕ} {ret : Option Status} {k : ℕ} {r : Option Status}
    {it' : It F n m} (h : loop env prm p s next fuel iter ret (t iter) = .ok (k, r, it')) :
    it' = t k ∧ (∀ j, iter ≤ j → j < k → prm.maxIter ≠ some j) ∧
    ((k = iter ∧ r = ret ∧ (ret ≠ none ∨ prm.maxIter = some k)) ∨
     (iter < k ∧ ret = none ∧ prm.stopCheckIter ≠ 0 ∧ r = verdict env prm p s t (k - 1) ∧ (r ≠ none ∨ prm.maxIter = some k) ∧
      ∀ j, iter ≤ j → j + 1 < k → verdict env prm p s t j = none)) := by
  induction fuel generalizing iter ret with
  | zero => simp [loop] at h
  | succ fuel ih =>
    rw [loop] at h
    split at h
    · rename_i hc
      split at h
      · cases h
      · rename_i hsc
        rw [← ht] at h
        obtain ⟨h1, h2, h3⟩ := ih h
        refine ⟨h1, ?_, Or.inr ?_⟩
        · intro j hj hjk
          rcases Nat.lt_or_ge iter j with hl | hl
          · exact h2 j hl hjk
          · have : j = iter := le_antisymm hl hj
            subst this; exact hc.1
        · have hv : (if iter % prm.stopCheckIter = 1 then check env prm p s iter (t iter) (t (iter + 1)) else none)
              = verdict env prm p s t iter := rfl
          rw [hv] at h3
          rcases h3 with ⟨hk, hr, hr'⟩ | ⟨hk, hr, _, hr2, hr3, hr4⟩
          · refine ⟨by omega, hc.2, hsc, by rw [hr, hk]; rfl, ?_, by omega⟩
            rw [hr]; exact hr'
          · refine ⟨by omega, hc.2, hsc, hr2, hr3, ?_⟩
            intro j hj hjk
            rcases Nat.lt_or_ge iter j with hl | hl
            · exact hr4 j hl hjk
            · have : j = iter := le_antisymm hl hj
              subst this; exact hr
    · rename_i hc
      simp only [Out.ok.injEq, Prod.mk.injEq] at h
      obtain ⟨rfl, rfl, rfl⟩ := h
      refine ⟨rfl, fun j h1 h2 => by omega, Or.inl ⟨rfl, rfl, ?_⟩⟩
      by_contra hcon
      push Not at hcon
      exact hc ⟨hcon.2, hcon.1⟩

/-- Enough fuel: an iteration budget, a preset code or a verdict ends the loop. -/
theorem loop_ends {env : Env F n} {prm : Params F} {p : Pbm F n m} {s : Scaling F n m} {next : It F n m → It F n m}
    {t : ℕ → It F n m} (ht : ∀ i, t (i + 1) = next (t i)) (hsc : prm.stopCheckIter ≠ 0) {e : ℕ}
    (he : prm.maxIter = some e ∨ (0 < e ∧ verdict env prm p s t (e - 1) ≠ none)) {iter : ℕ} (hi : iter ≤ e)
    (hi' : iter < e ∨ prm.maxIter = some e) (ret : Option Status)
    (fuel : ℕ) (hf : e - iter + 1 ≤ fuel) :
    ∃ k r, loop env prm p s next fuel iter ret (t iter) = .ok (k, r, t k) ∧ k ≤ e := by
  induction fuel generalizing iter ret with
  | zero => omega
  | succ fuel ih =>
    rw [loop]
    split
    · rename_i hc
      rw [← ht]
      have hlt : iter < e := by
        rcases hi' with h | h
        · exact h
        · rcases Nat.lt_or_ge iter e with h' | h'
          · exact h'
          · exact absurd (by rw [h]; congr 1; omega) hc.1
      by_cases hl : iter + 1 < e ∨ prm.maxIter = some e
      · exact ih (by omega) hl _ (by omega)
      · have hie : iter + 1 = e := by
          by_contra hcon
          exact hl (Or.inl (by omega))
        have hv : verdict env prm p s t (e - 1) ≠ none := by
          rcases he with h | h
          · exact absurd (Or.inr h) hl
          · exact h.2
        have hiter : e - 1 = iter := by omega
        rw [hiter] at hv
        unfold verdict at hv
        cases fuel with
        | zero => omega
        | succ fuel =>
          rw [loop, if_neg (fun h => hv h.2)]
          exact ⟨iter + 1, _, rfl, by omega⟩
    · exact ⟨iter, ret, rfl, hi⟩

/-- More fuel does not change an answer. -/
theorem loop_mono {env : Env F n} {prm : Params F} {p : Pbm F n m} {s : Scaling F n m} {next : It F n m → It F n m}
    {fuel iter : ℕ} {ret : Option Status} {it : It F n m} {a : ℕ × Option Status × It F n m}
    (h : loop env prm p s next fuel iter ret it = .ok a) {fuel' : ℕ} (hf : fuel ≤ fuel') :
    loop env prm p s next fuel' iter ret it = .ok a := by
  induction fuel generalizing iter ret it fuel' with
  | zero => simp [loop] at h
  | succ fuel ih =>
    cases fuel' with
    | zero => omega
    | succ fuel' =>
      rw [loop] at h ⊢
      split at h
      · rename_i hc
        rw [if_pos hc]
        split at h
        · cases h
        · rename_i hsc
          rw [if_neg hsc]
          exact ih h (by omega)
      · rename_i hc
        rw [if_neg hc]
        exact h

end Verif.QP
