import Verif.Model.PID
import Mathlib.Algebra.Order.Archimedean.Basic

/-! # A controller that is called again and again (C146) -/

namespace Verif.PIDSpec

open Verif.PID (Op Vec Traj Env)

variable {T G F : Type*} {n : ℕ} [LinearOrder T] [Field F] [LinearOrder F]

/-- What is handed to one call: time, state, velocity. -/
structure Sample (T G F : Type*) (n : ℕ) where
  t : T
  x : G
  v : Vec n F

/-- The first `j` calls. -/
def calls (c : ℕ → Sample T G F n) (j : ℕ) : List (Op T G F n) := (List.range j).map fun i => .call (c i).t (c i).x (c i).v

/-- Every call comes later than the one before, by at least `d`. -/
def Spaced (env : Env T G F n) (c : ℕ → Sample T G F n) (d : F) : Prop :=
  ∀ j, (c j).t < (c (j + 1)).t ∧ d ≤ env.tminus (c (j + 1)).t (c j).t

end Verif.PIDSpec
