import Verif.Model.Bench

/-! # Specification: what a benchmark is to report -/

namespace Verif.Bench

variable {F : Type*} {n m : ℕ}

/-- The same result, but for its duration. -/
def Same (a b : Result F n) : Prop := a.status = b.status ∧ a.iter = b.iter ∧ a.solution = b.solution ∧ a.objective = b.objective

/-- No entry is so small that `prune` removes it. -/
def NoDust [Field F] [LinearOrder F] (p : QP.Pbm F n m) : Prop :=
  (∀ i j, p.P i j = 0 ∨ 1 / 10 ^ 18 < |p.P i j|) ∧ ∀ i j, p.A i j = 0 ∨ 1 / 10 ^ 18 < |p.A i j|

/-- The problems that both methods report as solved. -/
def bothSolved (as bs : List (Result F n)) : List (Result F n × Result F n) := (as.zip bs).filter fun x => decide (x.1.status = .optimal) && decide (x.2.status = .optimal)

end Verif.Bench
