import Verif.Model.Snippets
import Mathlib.Analysis.Calculus.Deriv.Basic
import Mathlib.Analysis.Calculus.Deriv.Pi

/-! # Specification: what the snippets are about -/

namespace Verif.Snippets

open scoped Matrix
open Verif.Lie
open Verif.Vehicle (Parts)

/-- A displacement of the velocity alone leaves the pose. -/
def StillPart {X F : Type*} [Field F] (L : LieOps X F 6) (P : Parts X F) : Prop :=
  ∀ x a, a 0 = 0 → a 1 = 0 → a 2 = 0 → P.pos (L.rplus x a) = P.pos x ∧ P.rot (L.rplus x a) = P.rot x

/-- The attitude turns with the angular velocity. -/
def TurnPart {X : Type*} (L : LieOps X ℝ 6) (P : Parts X ℝ) : Prop :=
  ∀ x a i j, HasDerivAt (fun s : ℝ => P.rot (L.rplus x (s • a)) i j) ((P.rot x * !![0, -a 2; a 2, 0]) i j) 0

/-- A vehicle at rest in the origin. -/
def AtRest {X F : Type*} [Field F] (P : Parts X F) (x : X) : Prop := P.vel x = 0 ∧ P.pos x = 0 ∧ P.rot x = 1

/-- The covariance after one second from the identity: pose and velocity are correlated, the velocities that are damped are known better. -/
def prior {F : Type*} [Field F] : Matrix (Fin 6) (Fin 6) F :=
  !![2, 0, 0, 1, 0, 0; 0, 2, 0, 0, 1, 0; 0, 0, 2, 0, 0, 1; 1, 0, 0, 8 / 5, 0, 0; 0, 1, 0, 0, 2, 0; 0, 0, 1, 0, 0, 6 / 5]

/-- The covariance after the sighting. -/
def posterior {F : Type*} [Field F] : Matrix (Fin 6) (Fin 6) F :=
  !![22 / 21, -8 / 21, 4 / 7, 11 / 21, -4 / 21, 2 / 7;
     -8 / 21, 22 / 21, -4 / 7, -4 / 21, 11 / 21, -2 / 7;
     4 / 7, -4 / 7, 6 / 7, 2 / 7, -2 / 7, 3 / 7;
     11 / 21, -4 / 21, 2 / 7, 8 / 5 - 5 / 21, -2 / 21, 1 / 7;
     -4 / 21, 11 / 21, -2 / 7, -2 / 21, 2 - 5 / 21, -1 / 7;
     2 / 7, -2 / 7, 3 / 7, 1 / 7, -1 / 7, 6 / 5 - 2 / 7]

/-- The correction by the sighting. -/
def correction {F : Type*} [Field F] : Fin 6 → F := ![43 / 105, 34 / 105, -3 / 35, 43 / 210, 17 / 105, -3 / 70]

end Verif.Snippets
