import Verif.Spec.Linear
import Mathlib.LinearAlgebra.Matrix.NonsingularInverse

/-! # Specification: second moments of errors -/

namespace Verif.EKFSpec

open Matrix

variable {Ω F : Type*} [Fintype Ω] [Field F] [LinearOrder F] {n k l : ℕ}

/-- The matrix of second moments of two random vectors; `p` are the probabilities of the outcomes. -/
def moment (p : Ω → F) (a : Ω → Fin k → F) (b : Ω → Fin l → F) : Matrix (Fin k) (Fin l) F := fun i j => ∑ o, p o * (a o i * b o j)

/-- A linear measurement `y = H x + c + v`, where the filter is told the noise covariance `R`. -/
structure Obs (Ω F : Type*) (n : ℕ) where
  m : ℕ
  H : Matrix (Fin m) (Fin n) F
  c : Fin m → F
  R : Matrix (Fin m) (Fin m) F
  v : Ω → Fin m → F

/-- A step of time `dt` in which the truth moves by `dt (b + A x) + w`, where the filter is told the process noise `Q`. -/
structure Shift (Ω F : Type*) (n : ℕ) where
  dt : F
  A : Matrix (Fin n) (Fin n) F
  b : Fin n → F
  Q : Matrix (Fin n) (Fin n) F
  w : Ω → Fin n → F

/-- What happens. -/
inductive Ev (Ω F : Type*) (n : ℕ) where
  | obs (o : Obs Ω F n)
  | shift (s : Shift Ω F n)

/-- The size of the noise, and the noise. -/
def Ev.size : Ev Ω F n → ℕ
  | .obs o => o.m
  | .shift _ => n
def Ev.noise : (e : Ev Ω F n) → Ω → Fin e.size → F
  | .obs o => o.v
  | .shift s => s.w

/-- The truth afterwards. -/
def truth (l : List (Ev Ω F n)) (x : Fin n → F) (o : Ω) : Fin n → F :=
  l.foldl (fun x e => match e with
    | .obs _ => x
    | .shift s => x + s.dt • (s.b + s.A *ᵥ x) + s.w o) x

/-- A random vector of any size. -/
abbrev RVec (Ω F : Type*) := (k : ℕ) × (Ω → Fin k → F)

/-- Every noise is uncorrelated with the random vectors of the past and with the earlier noises. -/
def White (p : Ω → F) : List (RVec Ω F) → List (Ev Ω F n) → Prop
  | _, [] => True
  | past, e :: l => (∀ a ∈ past, moment p a.2 e.noise = 0) ∧ White p (⟨e.size, e.noise⟩ :: past) l

/-- The covariance after an event, by Kalman's formula for measurements and by a forward step for the rest. -/
noncomputable def Ev.cov (P : Matrix (Fin n) (Fin n) F) : Ev Ω F n → Matrix (Fin n) (Fin n) F
  | .obs o => P - P * o.Hᵀ * (o.H * P * o.Hᵀ + o.R)⁻¹ * (o.H * P)
  | .shift s => P + s.dt • (s.A * P + P * s.Aᵀ + s.Q)

/-- The covariance after a history. -/
noncomputable def cov (P : Matrix (Fin n) (Fin n) F) (l : List (Ev Ω F n)) : Matrix (Fin n) (Fin n) F := l.foldl (fun P e => e.cov P) P

/-- The filter is told noise covariances that cover the noise and, for steps of time, the term of second order. -/
def Covered (p : Ω → F) (P : Matrix (Fin n) (Fin n) F) (l : List (Ev Ω F n)) : Prop :=
  ∀ l₁ e l₂, l = l₁ ++ e :: l₂ → match e with
    | .obs o => Lin.PD o.R ∧ Lin.PSD (o.R - moment p o.v o.v)
    | .shift s => 0 ≤ s.dt ∧ s.Q.IsSymm ∧ Lin.PSD (s.dt • s.Q - moment p s.w s.w - (s.dt * s.dt) • (s.A * cov P l₁ * s.Aᵀ))

/-- The filter is told the noise covariances exactly. -/
def Exact (p : Ω → F) (l : List (Ev Ω F n)) : Prop :=
  ∀ e ∈ l, match e with
    | .obs o => Lin.PD o.R ∧ moment p o.v o.v = o.R
    | .shift s => 0 ≤ s.dt ∧ s.Q.IsSymm ∧ moment p s.w s.w = s.dt • s.Q

end Verif.EKFSpec
