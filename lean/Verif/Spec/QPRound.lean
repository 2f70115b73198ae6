import Verif.Model.QPRound
import Verif.Spec.QP

/-!
# Rounded arithmetic, and KKT conditions up to rounding
-/

namespace Verif.QPSpec

open Matrix Verif.QP

variable {F : Type*} [Field F] [LinearOrder F] {n m : ℕ}

/-- Growth of the relative error in `k` operations. -/
def amp (u : F) (k : ℕ) : F := (1 + u) ^ k - 1

/-- `|M| |x|`. -/
def absMV {k l : ℕ} (M : Matrix (Fin k) (Fin l) F) (x : Fin l → F) : Fin k → F := fun i => ∑ j, |M i j| * |x j|

/-- The standard model of floating point arithmetic with unit roundoff `u`, without underflow: every rounding has relative error at
most `u` and preserves order, and a row of a matrix-vector product with `l` columns (evaluated in any order, with or without fused
multiplication and addition) has error at most `((1 + u)^l - 1) |M| |x|`. -/
structure Rounds (ar : Arith F) (u : F) : Prop where
  nonneg : 0 ≤ u
  small : u < 1
  fl_err : ∀ a, |ar.fl a - a| ≤ u * |a|
  fl_mono : Monotone ar.fl
  mv_err : ∀ {k l : ℕ} (M : Matrix (Fin k) (Fin l) F) (x : Fin l → F) (i : Fin k),
    |ar.mv M x i - (M *ᵥ x) i| ≤ amp u l * absMV M x i

/-- `w` lies in the box up to three roundings of the bounds. -/
def InBoxR (u : F) (p : Pbm F n m) (w : Fin m → F) : Prop :=
  ∀ i, p.l i ≠ .pos ∧ p.u i ≠ .neg ∧ (∀ a, p.l i = .fin a → a - amp u 3 * |a| ≤ w i) ∧
    (∀ b, p.u i = .fin b → w i ≤ b + amp u 3 * |b|)

/-- Multipliers above `d` only where `w` is the upper bound, below `-d` only where `w` is the lower bound, up to three roundings of
the bound. -/
def ComplementaryR (u : F) (p : Pbm F n m) (w y d : Fin m → F) : Prop :=
  ∀ i, (d i < y i → ∃ b, p.u i = .fin b ∧ |w i - b| ≤ amp u 3 * |b|) ∧
    (y i < -d i → ∃ a, p.l i = .fin a ∧ |w i - a| ≤ amp u 3 * |a|)

/-- KKT conditions to the tolerance `(ea, er)` up to rounding with unit `u`; `d` bounds multipliers that are rounding errors. For
`u = 0` and `d = 0` this is `ApproxKKT`. -/
def ApproxKKTR (p : Pbm F n m) (ea er u : F) (x : Fin n → F) (y d : Fin m → F) : Prop :=
  ∃ z rp rd gA gP gT nz nq, InBoxR u p z ∧ ComplementaryR u p z y d ∧
    IsMaxNorm (absMV p.A x) gA ∧ IsMaxNorm (absMV p.P x) gP ∧ IsMaxNorm (absMV p.Aᵀ y) gT ∧ IsMaxNorm z nz ∧ IsMaxNorm p.q nq ∧
    Tol ea er (p.A *ᵥ x) z z rp ∧
    (∀ i, |(p.A *ᵥ x) i - z i| ≤ (1 + u) ^ 2 * (rp + er * (amp u n * gA)) + amp u (n + 1) * (gA + nz)) ∧
    Tol ea er (p.P *ᵥ x) p.q (p.Aᵀ *ᵥ y) rd ∧
    (∀ j, |(p.P *ᵥ x) j + p.q j + (p.Aᵀ *ᵥ y) j| ≤
      (1 + u) ^ 2 * (rd + er * (amp u n * gP + amp u m * gT)) + amp u (n + m + 2) * (gP + nq + gT))

end Verif.QPSpec
