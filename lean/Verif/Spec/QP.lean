import Verif.Model.QPSolver

/-!
# Quadratic programs: feasibility, optimality, KKT conditions

Only the data types `Ext` and `Pbm` come from the model.
-/

namespace Verif.QPSpec

open Matrix Verif.QP

variable {F : Type*} [Field F] [LinearOrder F] {n m : ℕ}

/-- `b ≤ a` for a lower bound `b`. -/
def lower : Ext F → F → Prop
  | .neg, _ => True
  | .fin b, a => b ≤ a
  | .pos, _ => False

/-- `a ≤ b` for an upper bound `b`. -/
def upper : Ext F → F → Prop
  | .neg, _ => False
  | .fin b, a => a ≤ b
  | .pos, _ => True

/-- `w` lies in the box `[l, u]`. -/
def InBox (p : Pbm F n m) (w : Fin m → F) : Prop := ∀ i, lower (p.l i) (w i) ∧ upper (p.u i) (w i)

/-- `x` satisfies the constraints. -/
def Feasible (p : Pbm F n m) (x : Fin n → F) : Prop := InBox p (p.A *ᵥ x)

/-- The objective of qp.hpp:23-27. -/
def cost (p : Pbm F n m) (x : Fin n → F) : F := x ⬝ᵥ p.P *ᵥ x / 2 + p.q ⬝ᵥ x

/-- The multipliers `y` are complementary to the point `w` of the box: positive ones only at the upper bound, negative
ones only at the lower bound. -/
def Complementary (p : Pbm F n m) (w y : Fin m → F) : Prop :=
  ∀ i, (0 < y i → p.u i = .fin (w i)) ∧ (y i < 0 → p.l i = .fin (w i))

/-- Karush-Kuhn-Tucker conditions. -/
def KKT (p : Pbm F n m) (x : Fin n → F) (y : Fin m → F) : Prop :=
  Feasible p x ∧ p.P *ᵥ x + p.q + p.Aᵀ *ᵥ y = 0 ∧ Complementary p (p.A *ᵥ x) y

/-- `r` is the maximum norm of `v`. -/
def IsMaxNorm {k : ℕ} (v : Fin k → F) (r : F) : Prop := 0 ≤ r ∧ (∀ i, |v i| ≤ r) ∧ (r = 0 ∨ ∃ i, r = |v i|)

/-- Bound `ea + er * max` of the largest of three norms. -/
def Tol (ea er : F) {a b c : ℕ} (v : Fin a → F) (w : Fin b → F) (t : Fin c → F) (r : F) : Prop :=
  ∃ rv rw rt, IsMaxNorm v rv ∧ IsMaxNorm w rw ∧ IsMaxNorm t rt ∧ r = ea + er * max (max rv rw) rt

/-- KKT conditions to the tolerance `(ea, er)`: a point `z` of the box, exactly complementary to `y`, with small primal
and dual residuals. -/
def ApproxKKT (p : Pbm F n m) (ea er : F) (x : Fin n → F) (y : Fin m → F) : Prop :=
  ∃ z rp rd, InBox p z ∧ Complementary p z y ∧
    Tol ea er (p.A *ᵥ x) z z rp ∧ (∀ i, |(p.A *ᵥ x) i - z i| ≤ rp) ∧
    Tol ea er (p.P *ᵥ x) p.q (p.Aᵀ *ᵥ y) rd ∧ (∀ j, |(p.P *ᵥ x) j + p.q j + (p.Aᵀ *ᵥ y) j| ≤ rd)

/-- The part of the support function of the box that comes from finite bounds. -/
def support (p : Pbm F n m) (d : Fin m → F) : F :=
  ∑ i, ((match p.u i with | .fin b => b * max 0 (d i) | _ => 0) + (match p.l i with | .fin a => a * min 0 (d i) | _ => 0))

/-- `d` is an approximate Farkas certificate with tolerance `e`: `A' d` and the support value are below `e |d|`, and on
a row without bound the sign is violated by at most `e |d|`. -/
def ApproxFarkas (p : Pbm F n m) (e : F) (d : Fin m → F) : Prop :=
  ∃ r, IsMaxNorm d r ∧ 0 < r ∧ (∀ j, |(p.Aᵀ *ᵥ d) j| < e * r) ∧ support p d < e * r ∧
    ∀ i, (p.u i = .pos → d i ≤ e * r) ∧ (p.l i = .neg → -(e * r) ≤ d i)

/-- `d` is an exact Farkas certificate: no point of the box is in the range of `A`. -/
def Farkas (p : Pbm F n m) (d : Fin m → F) : Prop :=
  p.Aᵀ *ᵥ d = 0 ∧ support p d < 0 ∧ ∀ i, (p.u i = .pos → d i ≤ 0) ∧ (p.l i = .neg → 0 ≤ d i)

/-- `d` is an approximate direction of unboundedness with tolerance `e`. -/
def ApproxRecession (p : Pbm F n m) (e : F) (d : Fin n → F) : Prop :=
  ∃ r, IsMaxNorm d r ∧ (∀ j, |(p.P *ᵥ d) j| ≤ e * r) ∧ p.q ⬝ᵥ d ≤ e * r ∧
    ∀ i, (p.u i ≠ .pos → (p.A *ᵥ d) i ≤ e * r) ∧ (p.l i ≠ .neg → -(e * r) ≤ (p.A *ᵥ d) i)

/-- `d` is an exact direction of unboundedness. -/
def Recession (p : Pbm F n m) (d : Fin n → F) : Prop :=
  p.P *ᵥ d = 0 ∧ p.q ⬝ᵥ d < 0 ∧
    ∀ i, (p.u i ≠ .pos → (p.A *ᵥ d) i ≤ 0) ∧ (p.l i ≠ .neg → 0 ≤ (p.A *ᵥ d) i)

/-- Bound times positive factor. -/
def scaleBound (s : F) : Ext F → Ext F
  | .neg => .neg
  | .fin a => .fin (s * a)
  | .pos => .pos

/-- The scaled problem as documented at qp_solver.hpp:649-657. -/
def scaledPbm (p : Pbm F n m) (c : F) (sx : Fin n → F) (sy : Fin m → F) : Pbm F n m where
  P := fun i j => c * sx i * p.P i j * sx j
  q := fun j => c * sx j * p.q j
  A := fun i j => sy i * p.A i j * sx j
  l := fun i => scaleBound (sy i) (p.l i)
  u := fun i => scaleBound (sy i) (p.u i)

/-- The objective takes arbitrarily small values on the feasible set. -/
def Unbounded (p : Pbm F n m) : Prop := ∀ b, ∃ x, Feasible p x ∧ cost p x < b

/-- A global minimiser. -/
def Minimiser (p : Pbm F n m) (x : Fin n → F) : Prop := Feasible p x ∧ ∀ w, Feasible p w → cost p x ≤ cost p w

end Verif.QPSpec
