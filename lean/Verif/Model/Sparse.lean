import Mathlib.Algebra.Field.Defs
import Mathlib.Data.List.Range
import Mathlib.Algebra.BigOperators.Fin

/-!
# Sparse matrix utilities (include/smooth/feedback/utils/sparse.hpp)

A sparse matrix keeps its sizes, its storage order and, for each position, either nothing or a stored value (possibly a
stored zero). Simplifications, repeated in DESIGN.md:
* scalars are exact elements of a field;
* allocation (`reserve`, `makeCompressed`) is invisible: only stored positions and values are kept;
* the sparse product inside `d2r_fog` is taken to store every entry (Eigen stores the structurally possible ones);
* an access outside the matrix (an assertion in Eigen) is the outcome `none`.
-/

namespace Verif.Sparse

/-- An Eigen matrix: `ent i j = none` means that nothing is stored at `(i, j)`. A dense matrix stores everything. -/
structure Sp (F : Type*) where
  rows : ℕ
  cols : ℕ
  rowMajor : Bool
  ent : ℕ → ℕ → Option F

section

variable {F : Type*} [Field F]

/-- `coeff(i, j)`: the numerical value. -/
def Sp.val (A : Sp F) (i j : ℕ) : F := (A.ent i j).getD 0

/-- `resize(r, c)`: an empty matrix. -/
def Sp.empty (r c : ℕ) (rowMajor : Bool := false) : Sp F := ⟨r, c, rowMajor, fun _ _ => none⟩

/-- A dense matrix (or vector) expression as a source. -/
def dense (r c : ℕ) (f : ℕ → ℕ → F) : Sp F := ⟨r, c, false, fun i j => if i < r ∧ j < c then some (f i j) else none⟩

/-- `block(r0, c0, r, c)`, of which `middleCols(c0, c)` and `col(c0)` are special cases. -/
def Sp.block (A : Sp F) (r0 c0 r c : ℕ) : Sp F :=
  ⟨r, c, A.rowMajor, fun i j => if i < r ∧ j < c then A.ent (r0 + i) (c0 + j) else none⟩

/-- `middleCols(c0, c)`. -/
def Sp.middleCols (A : Sp F) (c0 c : ℕ) : Sp F := A.block 0 c0 A.rows c

/-- The loops `for (c = 0; c < outerSize(); ++c) for (InnerIterator it(A, c); it; ++it)`: the stored entries in order. -/
def Sp.entries (A : Sp F) : List (ℕ × ℕ × F) :=
  if A.rowMajor then
    (List.range A.rows).flatMap fun r => (List.range A.cols).filterMap fun c => (A.ent r c).map fun v => (r, c, v)
  else
    (List.range A.cols).flatMap fun c => (List.range A.rows).filterMap fun r => (A.ent r c).map fun v => (r, c, v)

/-- `coeffRef(i, j) = g(coeffRef(i, j))`: a position that is not stored is first inserted with value zero. -/
def Sp.update (A : Sp F) (i j : ℕ) (g : F → F) : Option (Sp F) :=
  if i < A.rows ∧ j < A.cols then
    some { A with ent := fun a b => if a = i ∧ b = j then some (g (A.val i j)) else A.ent a b }
  else none

/-- The common loop of `block_add` and `block_write` (sparse.hpp:43-49, 78-84) over the remaining entries. -/
def blockLoop (op : F → F → F) (row0 col0 : ℕ) (scale : F) (upperOnly : Bool) :
    List (ℕ × ℕ × F) → Sp F → Option (Sp F)
  | [], A => some A
  | (r, c, v) :: l, A =>
    if upperOnly = false ∨ row0 + r ≤ col0 + c then
      match A.update (row0 + r) (col0 + c) (fun a => op a (scale * v)) with
      | none => none
      | some B => blockLoop op row0 col0 scale upperOnly l B
    else blockLoop op row0 col0 scale upperOnly l A

/-- `block_add` (sparse.hpp:33-50). -/
def blockAdd (A : Sp F) (row0 col0 : ℕ) (S : Sp F) (scale : F := 1) (upperOnly : Bool := false) : Option (Sp F) :=
  blockLoop (fun a b => a + b) row0 col0 scale upperOnly S.entries A

/-- `block_write` (sparse.hpp:68-85). -/
def blockWrite (A : Sp F) (row0 col0 : ℕ) (S : Sp F) (scale : F := 1) (upperOnly : Bool := false) : Option (Sp F) :=
  blockLoop (fun _ b => b) row0 col0 scale upperOnly S.entries A

/-- The loop of `block_add_identity` and `block_write_identity` (sparse.hpp:106, 128): indices `k` to `n - 1`. -/
def identityLoop (op : F → F → F) (row0 col0 : ℕ) (scale : F) : List ℕ → Sp F → Option (Sp F)
  | [], A => some A
  | k :: l, A =>
    match A.update (row0 + k) (col0 + k) (fun a => op a scale) with
    | none => none
    | some B => identityLoop op row0 col0 scale l B

/-- `block_add_identity` (sparse.hpp:102-107). -/
def blockAddIdentity (A : Sp F) (row0 col0 n : ℕ) (scale : F := 1) : Option (Sp F) :=
  identityLoop (fun a b => a + b) row0 col0 scale (List.range n) A

/-- `block_write_identity` (sparse.hpp:124-129). -/
def blockWriteIdentity (A : Sp F) (row0 col0 n : ℕ) (scale : F := 1) : Option (Sp F) :=
  identityLoop (fun _ b => b) row0 col0 scale (List.range n) A

/-- `set_zero` (sparse.hpp:138-149): both branches set every stored coefficient to zero. -/
def setZero (A : Sp F) : Sp F := { A with ent := fun i j => (A.ent i j).map fun _ => 0 }

/-- `count_explicit_zeros` (sparse.hpp:156-167). -/
def countExplicitZeros [DecidableEq F] (A : Sp F) : ℕ :=
  A.entries.foldl (fun n e => if e.2.2 = 0 then n + 1 else n) 0

/-- `mark_explicit_zeros` (sparse.hpp:179-195). -/
def markExplicitZeros [DecidableEq F] (A : Sp F) : ℕ → ℕ → F :=
  A.entries.foldl (fun R e => fun i j => if i = e.1 ∧ j = e.2.1 then (if e.2.2 = 0 then 9 else 1) else R i j) fun _ _ => 0

/-- `Jg.transpose() * Hf.middleCols(no * Ny, Ny) * Jg` (sparse.hpp:237), every entry stored. -/
def sandwich (Jg Hf : Sp F) (no Ny Nx : ℕ) : Sp F :=
  dense Nx Nx fun a b =>
    ∑ l ∈ Finset.range Ny, (∑ k ∈ Finset.range Ny, Jg.val k a * Hf.val k (no * Ny + l)) * Jg.val l b

/-- The arguments of a `block_add` call. -/
structure Blk (F : Type*) where
  row0 : ℕ
  col0 : ℕ
  src : Sp F
  scale : F
  upperOnly : Bool

/-- A sequence of `block_add` calls on one matrix. -/
def blockAdds : List (Blk F) → Sp F → Option (Sp F)
  | [], A => some A
  | b :: l, A =>
    match blockAdd A b.row0 b.col0 b.src b.scale b.upperOnly with
    | none => none
    | some B => blockAdds l B

/-- The calls in the first loop of `d2r_fog` (sparse.hpp:235-238). -/
def fogFirst (Hf Jg : Sp F) (No Ny Nx r0 c0 : ℕ) : List (Blk F) :=
  (List.range No).map fun no => ⟨r0, c0 + no * Nx, sandwich Jg Hf no Ny Nx, 1, false⟩

/-- The calls in the second loop of `d2r_fog` (sparse.hpp:240-244). -/
def fogSecond (Jf Hg : Sp F) (Nx r0 c0 : ℕ) : List (Blk F) :=
  Jf.entries.map fun e => ⟨r0, c0 + e.1 * Nx, Hg.middleCols (e.2.1 * Nx) Nx, e.2.2, false⟩

/-- `d2r_fog` (sparse.hpp:210-245). -/
def d2rFog (out Jf Hf Jg Hg : Sp F) (r0 c0 : ℕ := 0) : Option (Sp F) :=
  let No := Jf.rows
  let Ny := Jf.cols
  let Nx := Jg.cols
  if Ny = Jg.rows ∧ Hf.rows = Ny ∧ Hf.cols = No * Ny ∧ Hg.rows = Nx ∧ Hg.cols = Jg.rows * Nx then
    match blockAdds (fogFirst Hf Jg No Ny Nx r0 c0) out with
    | none => none
    | some A => blockAdds (fogSecond Jf Hg Nx r0 c0) A
  else none

end

end Verif.Sparse
