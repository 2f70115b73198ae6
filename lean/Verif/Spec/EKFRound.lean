import Verif.Model.EKF
import Verif.Spec.QPRound

/-!
# What the Kalman filter should do in rounded arithmetic
-/

namespace Verif.EKFSpec

open Matrix Verif.QP Verif.EKF

variable {F : Type*} [Field F] [LinearOrder F]

/-- The clock `dt, dt + dt, …` kept in rounded arithmetic. -/
def clock (fl : F → F) (dt : F) : ℕ → F
  | 0 => 0
  | k + 1 => fl (clock fl dt k + dt)

/-- The states at these times, from a rule for one step of given start time and length. -/
def states {S : Type*} (fl : F → F) (step : S → F → F → S) (dt : F) (s : S) : ℕ → S
  | 0 => s
  | k + 1 => step (states fl step dt s k) (clock fl dt k) dt

/-- How far one entry of the covariance after an update with gain `K` may be from its exact value: `kappa` bounds the error of the gain, and
`u` is the unit roundoff. -/
def covError {n m : ℕ} (u kappa : F) (P : Matrix (Fin n) (Fin n) F) (H : Matrix (Fin m) (Fin n) F) (K : Matrix (Fin n) (Fin m) F)
    (i j : Fin n) : F :=
  kappa * ∑ b, |(H * P) b j| +
    QPSpec.amp u (n + m + 1) * ∑ a, ((if i = a then 1 else 0) + ∑ b, |K i b| * |H b a|) * |P a j|

end Verif.EKFSpec
