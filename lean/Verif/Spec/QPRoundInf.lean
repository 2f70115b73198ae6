import Verif.Spec.QPRound

/-! # Certificates of infeasibility up to rounding -/

namespace Verif.QPSpec

open Matrix Verif.QP

variable {F : Type*} [Field F] [LinearOrder F] {n m : ℕ}

/-- The size of a bound; infinite bounds do not count. -/
def boundAbs : Ext F → F
  | .fin a => |a|
  | _ => 0

/-- The sum of the sizes of the terms of the support function. -/
def supportAbs (p : Pbm F n m) (d : Fin m → F) : F := ∑ i, (boundAbs (p.u i) * |max 0 (d i)| + boundAbs (p.l i) * |min 0 (d i)|)

/-- An approximate Farkas certificate (`ApproxFarkas`) up to the roundings of the test. -/
def ApproxFarkasR (p : Pbm F n m) (e u : F) (d : Fin m → F) : Prop :=
  ∃ r, IsMaxNorm d r ∧ 0 < r ∧ (∀ j, |(p.Aᵀ *ᵥ d) j| < (1 + u) * (e * r) + amp u m * absMV p.Aᵀ d j) ∧
    support p d < (1 + u) * (e * r) + amp u (2 * m + 1) * supportAbs p d ∧
    ∀ i, (p.u i = .pos → d i ≤ (1 + u) * (e * r)) ∧ (p.l i = .neg → -((1 + u) * (e * r)) ≤ d i)

/-- An approximate direction of unboundedness (`ApproxRecession`) up to the roundings of the test. -/
def ApproxRecessionR (p : Pbm F n m) (e u : F) (d : Fin n → F) : Prop :=
  ∃ r, IsMaxNorm d r ∧ (∀ j, |(p.P *ᵥ d) j| ≤ (1 + u) * (e * r) + amp u n * absMV p.P d j) ∧
    p.q ⬝ᵥ d ≤ (1 + u) * (e * r) + amp u n * ∑ j, |p.q j| * |d j| ∧
    ∀ i, (p.u i ≠ .pos → (p.A *ᵥ d) i ≤ (1 + u) * (e * r) + amp u n * absMV p.A d i) ∧
      (p.l i ≠ .neg → -((1 + u) * (e * r) + amp u n * absMV p.A d i) ≤ (p.A *ᵥ d) i)

/-- Inner products with the usual error. -/
def DotOk (ar : Arith F) (u : F) : Prop := ∀ {k : ℕ} (v w : Fin k → F), |ar.dot v w - v ⬝ᵥ w| ≤ amp u k * ∑ i, |v i| * |w i|

/-- `x` keeps a distance of `δ` from all finite bounds. -/
def Slack (p : Pbm F n m) (x : Fin n → F) (δ : F) : Prop :=
  ∀ i, p.l i ≠ .pos ∧ p.u i ≠ .neg ∧ (∀ a, p.l i = .fin a → a + δ ≤ (p.A *ᵥ x) i) ∧ ∀ b, p.u i = .fin b → (p.A *ᵥ x) i + δ ≤ b

end Verif.QPSpec
