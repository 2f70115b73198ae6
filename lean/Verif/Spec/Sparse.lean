import Verif.Model.Sparse

/-! # Specification of the sparse block operations -/

namespace Verif.Sparse

/-- `(i, j)` is a position of the `r` by `c` block at `(row0, col0)`. -/
def InBlock (row0 col0 r c i j : ℕ) : Prop := (row0 ≤ i ∧ i < row0 + r) ∧ col0 ≤ j ∧ j < col0 + c

instance (row0 col0 r c i j : ℕ) : Decidable (InBlock row0 col0 r c i j) := by unfold InBlock; infer_instance

/-- `(i, j)` is on the diagonal of the `n` by `n` block at `(row0, col0)`. -/
def OnDiagonal (row0 col0 n i j : ℕ) : Prop := ∃ k < n, i = row0 + k ∧ j = col0 + k

instance (row0 col0 n i j : ℕ) : Decidable (OnDiagonal row0 col0 n i j) := by unfold OnDiagonal; infer_instance

/-- The shape of a matrix is unchanged. -/
def SameShape {F : Type*} (A B : Sp F) : Prop := B.rows = A.rows ∧ B.cols = A.cols ∧ B.rowMajor = A.rowMajor

/-- Every position of the matrix is stored, as in a dense matrix. -/
def Full {F : Type*} (A : Sp F) : Prop := ∀ i j, i < A.rows → j < A.cols → A.ent i j ≠ none

end Verif.Sparse
