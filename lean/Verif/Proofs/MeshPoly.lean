import Verif.Proofs.MeshNodes
import Mathlib.LinearAlgebra.Lagrange
import Mathlib.LinearAlgebra.Matrix.ToLin
import Mathlib.LinearAlgebra.Matrix.ToLinearEquiv

/-! # Interpolation, differentiation and integration on a mesh: lemmas -/

set_option linter.unusedSectionVars false

namespace Verif.Mesh

open Polynomial Matrix

variable {F : Type*} [Field F] [LinearOrder F] [IsStrictOrderedRing F]

/-- The `j`-th column of a coefficient matrix as a polynomial. -/
noncomputable def colPoly {N : ℕ} (B : Matrix (Fin (N + 1)) (Fin (N + 1)) F) (j : Fin (N + 1)) : F[X] :=
  ∑ k : Fin (N + 1), C (B k j) * X ^ (k : ℕ)

theorem colPoly_degree {N : ℕ} (B : Matrix (Fin (N + 1)) (Fin (N + 1)) F) (j : Fin (N + 1)) :
    (colPoly B j).degree < (N + 1 : ℕ) := by
  refine lt_of_le_of_lt (degree_sum_le _ _) ?_
  rw [Finset.sup_lt_iff (by exact WithBot.bot_lt_coe _)]
  intro k _
  refine lt_of_le_of_lt (degree_C_mul_X_pow_le _ _) ?_
  exact_mod_cast k.2

theorem colPoly_eval {N : ℕ} (B : Matrix (Fin (N + 1)) (Fin (N + 1)) F) (j : Fin (N + 1)) (x : F) :
    (colPoly B j).eval x = ∑ k : Fin (N + 1), B k j * x ^ (k : ℕ) := by
  simp [colPoly, eval_finset_sum]

theorem interp {N : ℕ} {B : Matrix (Fin (N + 1)) (Fin (N + 1)) F} {ts : Fin (N + 1) → F} (hts : Function.Injective ts)
    (hB : ∀ i j, ∑ k : Fin (N + 1), B k j * ts i ^ (k : ℕ) = if i = j then 1 else 0) (q : F[X]) (hq : q.natDegree ≤ N) :
    q = ∑ j, C (q.eval (ts j)) * colPoly B j := by
  apply Polynomial.eq_of_degrees_lt_of_eval_index_eq (v := ts) Finset.univ hts.injOn
  · rw [Finset.card_univ, Fintype.card_fin]
    exact lt_of_le_of_lt degree_le_natDegree (by exact_mod_cast Nat.lt_succ_of_le hq)
  · rw [Finset.card_univ, Fintype.card_fin]
    refine lt_of_le_of_lt (degree_sum_le _ _) ?_
    rw [Finset.sup_lt_iff (by exact WithBot.bot_lt_coe _)]
    intro j _
    refine lt_of_le_of_lt (degree_mul_le _ _) ?_
    refine lt_of_le_of_lt (add_le_add_left degree_C_le _) ?_
    rw [zero_add]
    exact colPoly_degree B j
  · intro i _
    simp only [eval_finset_sum, eval_mul, eval_C, colPoly_eval, hB]
    simp

theorem evalWeights_eq {N : ℕ} (B : Matrix (Fin (N + 1)) (Fin (N + 1)) F) (u : F) (p : ℕ) (j : Fin (N + 1)) :
    evalWeights B u p j = (derivative^[p] (colPoly B j)).eval u := by
  unfold evalWeights colPoly monomialDeriv
  rw [iterate_derivative_sum, eval_finset_sum]
  apply Finset.sum_congr rfl
  intro k _
  rw [iterate_derivative_C_mul, iterate_derivative_X_pow_eq_natCast_mul]
  simp only [eval_mul, eval_C, eval_pow, eval_X, eval_natCast]
  ring

theorem basisDeriv_eq {N : ℕ} (B : Matrix (Fin (N + 1)) (Fin (N + 1)) F) (ts : Fin (N + 1) → F) (j i : Fin (N + 1)) :
    basisDeriv B ts j i = (colPoly B j).derivative.eval (ts i) := by
  unfold basisDeriv colPoly
  rw [derivative_sum, eval_finset_sum]
  apply Finset.sum_congr rfl
  intro k _
  simp only [derivative_C_mul_X_pow, eval_mul, eval_C, eval_pow, eval_X]

theorem sum_evalWeights {N : ℕ} {B : Matrix (Fin (N + 1)) (Fin (N + 1)) F} {ts : Fin (N + 1) → F}
    (hts : Function.Injective ts)
    (hB : ∀ i j, ∑ k : Fin (N + 1), B k j * ts i ^ (k : ℕ) = if i = j then 1 else 0) (q : F[X]) (hq : q.natDegree ≤ N)
    (u : F) (p : ℕ) : ∑ j, evalWeights B u p j * q.eval (ts j) = (derivative^[p] q).eval u := by
  conv_rhs => rw [interp hts hB q hq]
  rw [iterate_derivative_sum, eval_finset_sum]
  apply Finset.sum_congr rfl
  intro j _
  rw [iterate_derivative_C_mul, evalWeights_eq]
  simp only [eval_mul, eval_C]
  ring

theorem evalWeights_node {N : ℕ} {B : Matrix (Fin (N + 1)) (Fin (N + 1)) F} {ts : Fin (N + 1) → F}
    (hB : ∀ i j, ∑ k : Fin (N + 1), B k j * ts i ^ (k : ℕ) = if i = j then 1 else 0) (i j : Fin (N + 1)) :
    evalWeights B (ts i) 0 j = if i = j then 1 else 0 := by
  rw [← hB i j, evalWeights_eq]
  simp [colPoly_eval]

theorem weightedSum_eq {V : Type*} [AddCommGroup V] [Module F V] {N : ℕ} (W : Fin N → F) (r : List V) (x : Fin N → V)
    (h : ∀ j : Fin N, r[(j : ℕ)]? = some (x j)) : weightedSum W r = ∑ j, W j • x j := by
  have hz : (List.ofFn W).zip r = List.ofFn fun j => (W j, x j) := by
    apply List.ext_getElem?
    intro i
    by_cases hi : i < N
    · have := h ⟨i, hi⟩
      simp only at this
      simp [List.getElem?_zip_eq_some, this, hi, List.getElem?_ofFn, List.zip, List.getElem?_zipWith]
    · rw [List.getElem?_eq_none, List.getElem?_eq_none]
      · simpa using hi
      · simp; omega
  have hf : ∀ (l : List (F × V)) (a : V), l.foldl (fun a wv => a + wv.1 • wv.2) a = a + (l.map fun wv => wv.1 • wv.2).sum := by
    intro l
    induction l with
    | nil => simp
    | cons y l ih => intro a; simp [ih, add_assoc]
  rw [weightedSum, hz, hf, zero_add, List.map_ofFn, List.sum_ofFn]
  rfl

/-- The extended nodes of an LGR rule are pairwise different. -/
theorem nodeExt_injective {env : Env F} {K : ℕ} (h : IsLGR env K) :
    Function.Injective fun j : Fin (K + 1) => nodeExt env K j := by
  have hlt : ∀ i j : ℕ, i < j → j < K + 1 → nodeExt env K i < nodeExt env K j := by
    intro i j hij hj
    unfold nodeExt
    rw [if_pos (by omega)]
    split_ifs with h1
    · exact h.increasing i j hij h1
    · exact h.below i (by omega)
  intro i j hij
  simp only at hij
  rcases lt_trichotomy (i : ℕ) j with h1 | h1 | h1
  · exact absurd hij (hlt i j h1 j.2).ne
  · exact Fin.ext h1
  · exact absurd hij (hlt j i h1 i.2).ne'

theorem node_injective {env : Env F} {K : ℕ} (h : IsLGR env K) :
    Function.Injective fun j : Fin K => env.node K j := by
  intro i j hij
  simp only at hij
  rcases lt_trichotomy (i : ℕ) j with h1 | h1 | h1
  · exact absurd hij (h.increasing i j h1 j.2).ne
  · exact Fin.ext h1
  · exact absurd hij (h.increasing j i h1 i.2).ne'

/-! ### Differentiation and integration matrices -/

/-- Position of local coordinate `x ∈ [-1, 1]` in `[a, b]`. -/
def toMesh (a b x : F) : F := a + (b - a) / 2 * (x + 1)

/-- A polynomial in local coordinates. -/
noncomputable def localPoly (a b : F) (P : F[X]) : F[X] := P.comp (C ((b - a) / 2) * X + C (a + (b - a) / 2))

theorem localPoly_eval (a b : F) (P : F[X]) (x : F) : (localPoly a b P).eval x = P.eval (toMesh a b x) := by
  simp only [localPoly, eval_comp, eval_add, eval_mul, eval_C, eval_X, toMesh]
  congr 1; ring

theorem localPoly_natDegree (a b : F) (P : F[X]) : (localPoly a b P).natDegree ≤ P.natDegree := by
  calc (localPoly a b P).natDegree ≤ P.natDegree * (C ((b - a) / 2) * X + C (a + (b - a) / 2)).natDegree := natDegree_comp_le
    _ ≤ P.natDegree * 1 := Nat.mul_le_mul_left _ natDegree_linear_le
    _ = _ := mul_one _

theorem localPoly_derivative (a b : F) (P : F[X]) :
    (localPoly a b P).derivative = C ((b - a) / 2) * localPoly a b P.derivative := by
  simp only [localPoly, derivative_comp, derivative_add, derivative_mul, derivative_C, derivative_X, zero_mul, mul_one,
    zero_add, add_zero]

theorem localPoly_iterate_derivative (a b : F) (P : F[X]) (p : ℕ) :
    derivative^[p] (localPoly a b P) = C (((b - a) / 2) ^ p) * localPoly a b (derivative^[p] P) := by
  induction p generalizing P with
  | zero => simp
  | succ p ih =>
    rw [Function.iterate_succ_apply, localPoly_derivative, iterate_derivative_C_mul, ih, ← mul_assoc, ← C_mul,
      Function.iterate_succ_apply, pow_succ']

/-- The differentiation matrix applied to node values of a polynomial. -/
theorem diffmat_poly {env : Env F} {K : ℕ} (hK : IsLGR env K) (hB : IsLagrange env) {a b : F} (hab : a < b) (P : F[X])
    (hP : P.natDegree ≤ K) (i : Fin K) :
    ((fun j : Fin (K + 1) => P.eval (toMesh a b (nodeExt env K j))) ᵥ* diffmat env K a b) i =
      P.derivative.eval (toMesh a b (env.node K i)) := by
  have hinj := nodeExt_injective hK
  have hb := hB K _ hinj
  have h2 : b - a ≠ 0 := by linarith [sub_pos.2 hab] |> fun (h : 0 < b - a) => h.ne'
  have hq := sum_evalWeights hinj hb (localPoly a b P) ((localPoly_natDegree a b P).trans hP) (nodeExt env K i) 1
  have hn : nodeExt env K i = env.node K i := by simp [nodeExt]
  simp only [Function.iterate_one, localPoly_derivative, eval_mul, eval_C, localPoly_eval, hn] at hq
  have : ∀ j, evalWeights (env.basis K fun j => nodeExt env K j) (env.node K i) 1 j = diffmatUnscaled env K j i := by
    intro j
    rw [evalWeights_eq, diffmatUnscaled, basisDeriv_eq]
    simp [hn]
  simp only [this] at hq
  have key : ((fun j : Fin (K + 1) => P.eval (toMesh a b (nodeExt env K j))) ᵥ* diffmat env K a b) i =
      (∑ j, diffmatUnscaled env K j i * P.eval (toMesh a b (nodeExt env K j))) * (2 / (b - a)) := by
    simp only [vecMul, dotProduct, diffmat]
    rw [Finset.sum_mul]
    apply Finset.sum_congr rfl
    intro j _
    ring
  rw [key, hq]
  field_simp

/-- The polynomial of degree at most `K` through given values at the extended nodes of `[a, b]`. -/
theorem exists_poly {env : Env F} {K : ℕ} (hK : IsLGR env K) {a b : F} (hab : a < b) (y : Fin (K + 1) → F) :
    ∃ P : F[X], P.natDegree ≤ K ∧ ∀ j : Fin (K + 1), P.eval (toMesh a b (nodeExt env K j)) = y j := by
  have hinj : Function.Injective fun j : Fin (K + 1) => toMesh a b (nodeExt env K j) := by
    intro i j hij
    apply nodeExt_injective hK
    simp only [toMesh] at hij ⊢
    have h2 : (b - a) / 2 ≠ 0 := by
      have : 0 < (b - a) / 2 := by linarith
      exact this.ne'
    have := mul_left_cancel₀ h2 (add_left_cancel hij)
    linarith
  refine ⟨Lagrange.interpolate Finset.univ (fun j : Fin (K + 1) => toMesh a b (nodeExt env K j)) y, ?_, ?_⟩
  · have := Lagrange.degree_interpolate_lt (s := Finset.univ) y hinj.injOn
    rw [Finset.card_univ, Fintype.card_fin] at this
    by_cases h0 : Lagrange.interpolate Finset.univ (fun j : Fin (K + 1) => toMesh a b (nodeExt env K j)) y = 0
    · rw [h0]; simp
    · have := (Polynomial.natDegree_lt_iff_degree_lt h0).2 this
      omega
  · intro j
    exact Lagrange.eval_interpolate_at_node (s := Finset.univ) y hinj.injOn (Finset.mem_univ j)

/-- Rows `1 ..= K` of the differentiation matrix are invertible. -/
theorem diffmat_isUnit {env : Env F} {K : ℕ} (hK : IsLGR env K) (hB : IsLagrange env) {a b : F} (hab : a < b) :
    IsUnit ((diffmat env K a b).submatrix (Fin.succ : Fin K → Fin (K + 1)) id).det := by
  rw [isUnit_iff_ne_zero]
  intro hdet
  obtain ⟨v, hv0, hv⟩ := Matrix.exists_vecMul_eq_zero_iff.2 hdet
  obtain ⟨P, hPd, hP⟩ := exists_poly hK hab (Fin.cons 0 v)
  have hder : ∀ i : Fin K, P.derivative.eval (toMesh a b (env.node K i)) = 0 := by
    intro i
    rw [← diffmat_poly hK hB hab P hPd i]
    have : (fun j : Fin (K + 1) => P.eval (toMesh a b (nodeExt env K j))) = Fin.cons 0 v := by
      funext j; exact hP j
    rw [this]
    have hvi := congrFun hv i
    simp only [vecMul, dotProduct, Fin.sum_univ_succ, Fin.cons_zero, Fin.cons_succ, zero_mul, zero_add] at hvi ⊢
    exact hvi
  have hinj : Function.Injective fun j : Fin K => toMesh a b (env.node K j) := by
    intro i j hij
    apply node_injective hK
    simp only [toMesh] at hij ⊢
    have h2 : (b - a) / 2 ≠ 0 := by
      have : 0 < (b - a) / 2 := by linarith
      exact this.ne'
    have := mul_left_cancel₀ h2 (add_left_cancel hij)
    linarith
  have hKpos : 0 < K := by
    rcases Nat.eq_zero_or_pos K with rfl | h
    · exact absurd (Subsingleton.elim v 0) hv0
    · exact h
  have hd0 : P.derivative = 0 := by
    apply Polynomial.eq_of_degrees_lt_of_eval_index_eq (v := fun j : Fin K => toMesh a b (env.node K j)) Finset.univ hinj.injOn
    · rw [Finset.card_univ, Fintype.card_fin]
      by_cases h0 : P.derivative = 0
      · rw [h0, degree_zero]; exact WithBot.bot_lt_coe _
      · rw [← Polynomial.natDegree_lt_iff_degree_lt h0]
        have := Polynomial.natDegree_derivative_le P
        omega
    · rw [Finset.card_univ, degree_zero]; exact WithBot.bot_lt_coe _
    · intro i _; simpa using hder i
  have hconst := Polynomial.natDegree_eq_zero_of_derivative_eq_zero hd0
  rw [Polynomial.natDegree_eq_zero] at hconst
  obtain ⟨c, rfl⟩ := hconst
  have h0 := hP 0
  simp only [eval_C, Fin.cons_zero] at h0
  apply hv0
  funext j
  have := hP j.succ
  simp only [eval_C, Fin.cons_succ] at this
  rw [← this, h0]; rfl

/-- The integration matrix recovers node values from derivative values. -/
theorem intmat_poly {env : Env F} {K : ℕ} (hK : IsLGR env K) (hB : IsLagrange env) {a b : F} (hab : a < b) (P : F[X])
    (hP : P.natDegree ≤ K) (j : Fin K) :
    P.eval (toMesh a b (nodeExt env K (j + 1))) = P.eval a +
      ((fun i : Fin K => P.derivative.eval (toMesh a b (env.node K i))) ᵥ* intmat env K a b) j := by
  have hK0 : 0 < K := j.pos
  set M := (diffmat env K a b).submatrix (Fin.succ : Fin K → Fin (K + 1)) id
  have hM := diffmat_isUnit hK hB hab
  have ha : toMesh a b (nodeExt env K 0) = a := by
    have : nodeExt env K 0 = -1 := by rw [nodeExt, if_pos hK0, hK.first]
    rw [this, toMesh]; ring
  -- subtract the constant
  have hval : (fun i : Fin K => P.derivative.eval (toMesh a b (env.node K i))) =
      (fun j : Fin K => P.eval (toMesh a b (nodeExt env K (j + 1))) - P.eval a) ᵥ* M := by
    funext i
    have h := diffmat_poly hK hB hab (P - C (P.eval a)) (by rw [natDegree_sub_C]; exact hP) i
    simp only [derivative_sub, derivative_C, sub_zero, eval_sub, eval_C] at h
    rw [← h]
    simp only [vecMul, dotProduct, Fin.sum_univ_succ, M, submatrix_apply, id_eq]
    simp [ha]
  rw [hval, vecMul_vecMul, intmat, Matrix.mul_nonsing_inv _ hM, vecMul_one]
  ring

end Verif.Mesh
