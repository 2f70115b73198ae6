import Verif.Spec.Mesh

/-!
# The mesh in binary floating point arithmetic: specification

Only data types and `spans` come from elsewhere.
-/

namespace Verif.Mesh

variable {F : Type*} [Field F] [LinearOrder F]

/-- Binary floating point arithmetic with unit roundoff `u`, without overflow and underflow: rounding has relative error at most `u`,
preserves order, keeps representable numbers, commutes with doubling, and the difference of two representable numbers within a factor
of two is exact (the lemma of Sterbenz). -/
structure Binary (fl : F → F) (u : F) : Prop where
  nonneg : 0 ≤ u
  err : ∀ a, |fl a - a| ≤ u * |a|
  mono : Monotone fl
  idem : ∀ a, fl (fl a) = fl a
  double : ∀ a, fl (2 * a) = 2 * fl a
  close : ∀ a b, 0 ≤ a → fl a = a → fl b = b → a ≤ b → b ≤ 2 * a → fl (b - a) = b - a

/-- A mesh of `[0, 1]` whose intervals may be empty: starts at 0, in nondecreasing order up to 1, all degrees in `[Kmin, Kmax + 1]`,
every breakpoint representable, and every width computed without error. -/
structure Ordered (fl : F → F) (Kmin Kmax : ℕ) (m : Mesh F) : Prop where
  starts : (m.map Ival.tau0).head? = some 0
  order : (m.map Ival.tau0).Pairwise (· ≤ ·)
  below : ∀ v ∈ m, v.tau0 ≤ 1
  degree : ∀ v ∈ m, Kmin ≤ v.K ∧ v.K ≤ Kmax + 1
  rep : ∀ v ∈ m, fl v.tau0 = v.tau0
  widths : ∀ s ∈ spans 1 m, fl (s.2 - s.1.tau0) = s.2 - s.1.tau0

/-- The meshes made by the constructors with at most `N` intervals, and a lower bound of the widths of their intervals. -/
inductive Start (fl : F → F) (Kmin Kmax N : ℕ) : Mesh F → F → Prop
  | one : Start fl Kmin Kmax N [⟨Kmin, 0⟩] 1
  | few (n k : ℕ) : Kmin ≤ k → k ≤ Kmax + 1 → n < 2 → Start fl Kmin Kmax N [⟨k, 0⟩] 1
  | many (n k : ℕ) : Kmin ≤ k → k ≤ Kmax + 1 → 2 ≤ n → n ≤ N →
      Start fl Kmin Kmax N ((List.range n).map fun i : ℕ => ⟨k, fl (fl (i : F) * fl (1 / fl (n : F)))⟩) (1 / (2 * n))

/-- The operation asks for at most `D` points in any interval. -/
def Op.AsksAtMost (env : Env F) (Kmax D : ℕ) : Op F → Prop
  | .refinePh _ D' => D' ≤ D
  | .refineErrors errs target => ∀ K ≤ Kmax + 1, ∀ e ∈ errs, target < e → K + env.growth K e target ≤ D
  | _ => True

/-- The number of refinements in a history. -/
def refinements : List (Op F) → ℕ
  | [] => 0
  | .refinePh _ _ :: os => refinements os + 1
  | .refineErrors _ _ :: os => refinements os + 1
  | _ :: os => refinements os

end Verif.Mesh
